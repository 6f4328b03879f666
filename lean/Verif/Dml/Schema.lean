import Verif.Dml.Table
import Verif.Gns.CatTheorems
/-!
C33: rows and the columns that were added or removed after they were inserted.
-/
namespace Verif.Dml
open Verif.Gns (SDelta Model upd fget ModelOk FieldsOk PkNonNull names fget_mem fget_of_mem fget_none AlterKind plan
  addFields updateFields removeFields)
open Verif.Enc (Fields)
open Verif.Lex (Lit)

/-! ### Model -/

/-- What a successful `ALTER MODEL` does to the model (`Gns.execAlterModel`, `core/model/alt.rs:249-327`). The
rows are not touched. -/
def alterModel (perm : Fields → Fields) (m : Model) (k : AlterKind) : Model :=
  match plan perm m k with
  | .ok (.add fs, true) => addFields m fs
  | .ok (.update fs, true) => updateFields m fs
  | .ok (.remove ns, true) => (removeFields m ns).getD m
  | _ => m

/-- A statement on the rows, or an `ALTER MODEL`. -/
inductive HOp where
  | stmt (s : Stmt)
  | alter (perm : Fields → Fields) (k : AlterKind)

/-- Statements and schema changes one after the other. -/
def hrun (F : FloatOps) (order : List (Key × Nat) → List (Key × Nat)) (t : Tbl) : List HOp → Tbl × List Reply
  | [] => (t, [])
  | .stmt s :: os =>
    match exec F order t s with
    | (t, r) => ((hrun F order t os).1, r :: (hrun F order t os).2)
  | .alter perm k :: os => hrun F order { t with model := alterModel perm t.model k } os

/-- It is what the catalogue does: after an acknowledged `ALTER MODEL` the model is `alterModel`. -/
theorem alterModel_exec {perm : Fields → Fields} {c : Gns.Cat} {w : Gns.World} {s n : String} {k : AlterKind} {m : Model}
    {o : Option Bool} (hm : c.models s n = some m) (h : (Gns.execAlterModel perm c w s n k).reply = .ok o) :
    (Gns.execAlterModel perm c w s n k).cat.models s n = some (alterModel perm m k) := by
  rw [Gns.execAlterModel] at h ⊢
  simp only [hm] at h ⊢
  cases hs : c.spaces s with
  | none => rw [hs] at h; cases h
  | some sp =>
    simp only [hs] at h ⊢
    rw [alterModel]
    cases hp : plan perm m k with
    | err e => rw [hp] at h; cases h
    | panic => rw [hp] at h; cases h
    | hang => rw [hp] at h; cases h
    | ok x =>
      obtain ⟨a, b⟩ := x
      rw [hp] at h
      cases b with
      | false => cases h
      | true =>
        cases hc : w.commitOk with
        | false =>
          cases a with
          | ignore => exact hm
          | add fs => simp [Gns.Cat.commit, hc, Gns.Cat.reply] at h
          | update fs => simp [Gns.Cat.commit, hc, Gns.Cat.reply] at h
          | remove ns =>
            cases hr : removeFields m ns <;> simp [Gns.Cat.commit, hc, Gns.Cat.reply, hr] at h
        | true =>
          cases a with
          | ignore => exact hm
          | add fs => simp [Gns.Cat.commit, hc, Gns.upd2]
          | update fs => simp [Gns.Cat.commit, hc, Gns.upd2]
          | remove ns =>
            cases hr : removeFields m ns with
            | none => simp [Gns.Cat.commit, hc, hr] at h
            | some m' => simp [Gns.Cat.commit, hc, hr, Gns.upd2]

/-! ### Specification -/

/-- The column that a change is about. -/
def SDelta.name : SDelta → String
  | .add k => k
  | .rem k => k

/-- A row after a change of the columns: null in a new column, nothing in a removed one. -/
def seeOne (c : Cells) : SDelta → Cells
  | .add k => upd c k (some .null)
  | .rem k => upd c k none

/-- A row after changes of the columns. -/
def see (c : Cells) (ds : List SDelta) : Cells := ds.foldl seeOne c

/-- Rows by key: the number of schema changes when the row was inserted, and the cells then. -/
abbrev HTable := Key → Option (Nat × Cells)

/-- The table that should be seen. -/
def HTable.now (A : HTable) (m : Model) : ATable :=
  fun k => (A k).map fun (v, c) => see c (m.deltas.drop v)

/-- The replies and the content that histories without UPDATE should have. Replies to SELECT are left open
here; what a SELECT should answer in a given state is `SpecStep` on `HTable.now`. -/
inductive HSpec (F : FloatOps) : Model → HTable → List HOp → Model → HTable → List Reply → Prop where
  | nil {m : Model} {A : HTable} : HSpec F m A [] m A []
  | alter {m n : Model} {A B : HTable} {perm : Fields → Fields} {k : AlterKind} {os : List HOp} {rs : List Reply}
      (h : HSpec F (alterModel perm m k) A os n B rs) : HSpec F m A (.alter perm k :: os) n B rs
  | insert {m n : Model} {A B : HTable} {d : InsData} {v : Cell} {os : List HOp} {rs : List Reply}
      (hi : InsertOk m.fields d) (hv : assoc (pairs m.fields d) m.pk = some v) (hk : A (keyOfCell v) = none)
      (h : HSpec F m (fun k => if k = keyOfCell v then some (m.deltas.length, rowOf m.fields m.pk d) else A k)
        os n B rs) : HSpec F m A (.stmt (.insert d) :: os) n B (.empty :: rs)
  | other {m n : Model} {A B : HTable} {d : InsData} {os : List HOp} {r : Reply} {rs : List Reply}
      (hs : SpecStep F m (A.now m) (.insert d) (A.now m) r) (hr : ∃ e, r = .err e)
      (h : HSpec F m A os n B rs) : HSpec F m A (.stmt (.insert d) :: os) n B (r :: rs)
  | delete {m n : Model} {A B : HTable} {w : Where} {k : Key} {os : List HOp} {rs : List Reply} (hw : WhereKey m w k)
      (hk : (A k).isSome) (h : HSpec F m (fun x => if x = k then none else A x) os n B rs) :
      HSpec F m A (.stmt (.delete w) :: os) n B (.empty :: rs)
  | deleteErr {m n : Model} {A B : HTable} {w : Where} {os : List HOp} {r : Reply} {rs : List Reply}
      (hs : SpecStep F m (A.now m) (.delete w) (A.now m) r) (hr : ∃ e, r = .err e)
      (h : HSpec F m A os n B rs) : HSpec F m A (.stmt (.delete w) :: os) n B (r :: rs)
  | select {m n : Model} {A B : HTable} {fs : Option (List String)} {w : Where} {os : List HOp} {r : Reply}
      {rs : List Reply} (h : HSpec F m A os n B rs) : HSpec F m A (.stmt (.select fs w) :: os) n B (r :: rs)
  | selectAll {m n : Model} {A B : HTable} {fs : Option (List String)} {l : Nat} {os : List HOp} {r : Reply}
      {rs : List Reply} (h : HSpec F m A os n B rs) : HSpec F m A (.stmt (.selectAll fs l) :: os) n B (r :: rs)

/-! ### Changes of the columns -/

/-- `ds` is a possible list of changes from the columns `P` to the columns `Q`. -/
def Chain (pk : String) : (String → Prop) → List SDelta → (String → Prop) → Prop
  | P, [], Q => ∀ x, P x ↔ Q x
  | P, .add k :: ds, Q => ¬ P k ∧ Chain pk (fun x => x = k ∨ P x) ds Q
  | P, .rem k :: ds, Q => P k ∧ k ≠ pk ∧ Chain pk (fun x => x ≠ k ∧ P x) ds Q

theorem Chain.snoc {pk : String} : ∀ {ds es : List SDelta} {P Q R : String → Prop}, Chain pk P ds Q → Chain pk Q es R →
    Chain pk P (ds ++ es) R
  | [], es, P, Q, R, h1, h2 => by
    have : P = Q := funext fun x => propext (h1 x)
    rw [this]; exact h2
  | .add k :: ds, es, P, Q, R, h1, h2 => ⟨h1.1, h1.2.snoc h2⟩
  | .rem k :: ds, es, P, Q, R, h1, h2 => ⟨h1.1, h1.2.1, h1.2.2.snoc h2⟩

/-- The changes as a row applies them are right, also if the row is wrong about one column. -/
theorem fold_agree {pk : String} {y : Option String} : ∀ {ds : List SDelta} {P Q : String → Prop} {c c' : Cells},
    Chain pk P ds Q → P pk → (∀ x, (c x).isSome ↔ P x ∧ x ≠ pk) → (∀ x, y ≠ some x → c' x = c x) →
    (∀ x, y ≠ some x → ds.foldl applySchema c' x = see c ds x) ∧ (∀ x, (see c ds x).isSome ↔ Q x ∧ x ≠ pk)
  | [], P, Q, c, c', h, _, hc, ha => ⟨ha, fun x => by rw [← h x]; exact hc x⟩
  | .add k :: ds, P, Q, c, c', h, hp, hc, ha => by
    have hk : k ≠ pk := by rintro rfl; exact h.1 hp
    have hnone : c k = none := by
      have := hc k
      cases hck : c k with
      | none => rfl
      | some v => rw [hck] at this; exact absurd (this.1 rfl).1 h.1
    refine fold_agree (c := upd c k (some .null)) h.2 (.inr hp) ?_ ?_
    · intro x
      simp only [upd]
      split
      · rename_i e; subst e; simp [hk]
      · rename_i e; simp [e, hc x]
    · intro x hx
      simp only [applySchema]
      by_cases e : x = k
      · subst e
        have : c' x = none := by rw [ha x hx, hnone]
        rw [this]
        simp [upd]
      · cases hck : c' k with
        | none => simp [upd, e, ha x hx]
        | some v => simp [upd, e, ha x hx]
  | .rem k :: ds, P, Q, c, c', h, hp, hc, ha => by
    refine fold_agree (c := upd c k none) h.2.2 ⟨fun e => h.2.1 e.symm, hp⟩ ?_ ?_
    · intro x
      simp only [upd]
      split
      · rename_i e; subst e; simp
      · rename_i e; simp [e, hc x]
    · intro x hx
      simp only [applySchema, upd]
      split
      · rfl
      · exact ha x hx

/-- Adding columns is a chain. -/
theorem chain_add {m : Model} {fs : Fields} (h : FieldsOk fs) (h2 : ∀ k ∈ names fs, k ∉ names m.fields) :
    Chain m.pk (· ∈ names m.fields) ((names fs).map .add) (· ∈ names (addFields m fs).fields) := by
  obtain ⟨_, i2, _⟩ := Gns.replayAdd_spec h h2
  rw [i2, Gns.names_append]
  have gen : ∀ (l : List String) (P : String → Prop), l.Nodup → (∀ k ∈ l, ¬ P k) →
      Chain m.pk P (l.map .add) (fun x => P x ∨ x ∈ l) := by
    intro l
    induction l with
    | nil => intro P _ _ x; simp
    | cons k l ih =>
      intro P hn hp
      rw [List.nodup_cons] at hn
      refine ⟨hp k (by simp), ?_⟩
      have := ih (fun x => x = k ∨ P x) hn.2 (by
        intro x hx
        rintro (rfl | h)
        · exact hn.1 hx
        · exact hp x (by simp [hx]) h)
      have e : (fun x => P x ∨ x ∈ k :: l) = fun x => (x = k ∨ P x) ∨ x ∈ l := by
        funext x
        simp only [List.mem_cons, eq_iff_iff]
        constructor
        · rintro (h | h | h)
          · exact .inl (.inr h)
          · exact .inl (.inl h)
          · exact .inr h
        · rintro ((h | h) | h)
          · exact .inr (.inl h)
          · exact .inl h
          · exact .inr (.inr h)
      rw [e]
      exact this
  have := gen (names fs) (· ∈ names m.fields) h.1 h2
  have e : (fun x => x ∈ names m.fields ++ names fs) = fun x => x ∈ names m.fields ∨ x ∈ names fs := by
    funext x; simp
  rw [e]
  exact this

/-- What `ALTER MODEL` does to the changes. -/
theorem removeFields_chain : ∀ {ns : List String} {m m' : Model}, (names m.fields).Nodup →
    (∀ k ∈ ns, k ≠ m.pk) → removeFields m ns = some m' →
    ∃ es, m'.deltas = m.deltas ++ es ∧ Chain m.pk (· ∈ names m.fields) es (· ∈ names m'.fields) ∧ m'.pk = m.pk ∧
      m'.pkTag = m.pkTag
  | [], m, m', _, _, h => by
    cases h
    exact ⟨[], by simp, fun _ => Iff.rfl, rfl, rfl⟩
  | k :: ns, m, m', hn, hk, h => by
    rw [removeFields] at h
    cases hr : m.removeField k with
    | none => rw [hr] at h; cases h
    | some x =>
      obtain ⟨m1, b⟩ := x
      rw [hr] at h
      simp only [Gns.Model.removeField, Gns.fdelete] at hr
      cases hg : fget m.fields k with
      | none => rw [hg] at hr; cases hr
      | some f =>
        rw [hg] at hr
        simp only [Option.some.injEq, Prod.mk.injEq] at hr
        obtain ⟨rfl, _⟩ := hr
        simp only at h
        have hn1 : (names (Gns.ferase m.fields k)).Nodup := by rw [Gns.names_ferase]; exact hn.erase k
        obtain ⟨es, i1, i2, i3, i4⟩ := removeFields_chain (ns := ns)
          (m := { m with fields := Gns.ferase m.fields k, deltas := m.deltas ++ [.rem k] }) hn1
          (fun x hx => hk x (by simp [hx])) h
        refine ⟨.rem k :: es, by rw [i1]; simp, ⟨Gns.fget_isSome.1 (by simp [hg]), hk k (by simp), ?_⟩, i3, i4⟩
        have e : (fun x => x ∈ names (Gns.ferase m.fields k)) = fun x => x ≠ k ∧ x ∈ names m.fields := by
          funext x
          rw [Gns.names_ferase, eq_iff_iff]
          exact List.Nodup.mem_erase_iff hn
        rw [← e]
        exact i2

theorem updateFields_deltas : ∀ (fs : Fields) (m : Model), (updateFields m fs).deltas = m.deltas ∧
    (updateFields m fs).pk = m.pk ∧ (updateFields m fs).pkTag = m.pkTag
  | [], m => ⟨rfl, rfl, rfl⟩
  | (k, f) :: fs, m => by
    rw [updateFields]
    obtain ⟨h1, h2, h3⟩ := updateFields_deltas fs (m.updateField k f).1
    refine ⟨h1.trans ?_, h2.trans ?_, h3.trans ?_⟩ <;> rfl

theorem updateFields_names : ∀ {fs : Fields} {m : Model}, ModelOk m → (∀ e ∈ fs, LegalType e.2.layers) →
    (∀ k ∈ names fs, k ∈ names m.fields ∧ k ≠ m.pk) → ∀ x, x ∈ names (updateFields m fs).fields ↔ x ∈ names m.fields
  | [], _, _, _, _, _ => Iff.rfl
  | (k, f) :: fs, m, hm, h1, h2, x => by
    obtain ⟨_, u2, u3, u4, _⟩ := Gns.updateField_ok (f := f) hm (h1 (k, f) (by simp)) (h2 k (by simp)).1 (h2 k (by simp)).2
    rw [updateFields, updateFields_names u2 (fun e he => h1 e (by simp [he])) (by
      intro y hy
      rw [u3, u4]
      exact h2 y (by simp [hy])), u3]

/-- What any `ALTER MODEL` does: the deltas describe the change of the columns. `perm` is a permutation. -/
theorem alterModel_spec {perm : Fields → Fields} (hperm : ∀ l, (perm l).Perm l) {m : Model} (hm : ModelOk m) (k : AlterKind) :
    ModelOk (alterModel perm m k) ∧ (PkNonNull m → PkNonNull (alterModel perm m k)) ∧
    (alterModel perm m k).pk = m.pk ∧ (alterModel perm m k).pkTag = m.pkTag ∧
    ∃ es, (alterModel perm m k).deltas = m.deltas ++ es ∧
      Chain m.pk (· ∈ names m.fields) es (· ∈ names (alterModel perm m k).fields) := by
  have same : ∀ m' : Model, m' = m → ModelOk m' ∧ (PkNonNull m → PkNonNull m') ∧ m'.pk = m.pk ∧ m'.pkTag = m.pkTag ∧
      ∃ es, m'.deltas = m.deltas ++ es ∧ Chain m.pk (· ∈ names m.fields) es (· ∈ names m'.fields) := by
    rintro _ rfl
    exact ⟨hm, id, rfl, rfl, [], by simp, fun _ => Iff.rfl⟩
  rw [alterModel]
  split
  · rename_i fs hp
    obtain ⟨h1, h2⟩ := Gns.plan_add hp
    obtain ⟨i1, i2⟩ := Gns.addFields_ok hm h1 h2
    obtain ⟨_, j1, j2, j3, _, j4⟩ := Gns.replayAdd_spec h1 h2
    exact ⟨i1, i2, j2, j3, _, j4, chain_add h1 h2⟩
  · rename_i fs hp
    obtain ⟨h1, h2⟩ := Gns.plan_update hperm hm.fields hp
    obtain ⟨_, i1, i2⟩ := Gns.replayUpdate_spec hm h1.2 h2
    obtain ⟨j1, j2, j3⟩ := updateFields_deltas fs m
    exact ⟨i1, i2, j2, j3, [], by rw [j1]; simp, fun x => (updateFields_names hm h1.2 h2 x).symm⟩
  · rename_i ns hp
    obtain ⟨h1, h2⟩ := Gns.plan_remove hp
    obtain ⟨m', i1, i2, i3⟩ := Gns.removeFields_spec hm h1 h2
    rw [i1]
    obtain ⟨es, j1, j2, j3, j4⟩ := removeFields_chain hm.fields.1 (fun k hk => (h2 k hk).2) i1
    exact ⟨i2, i3, j3, j4, es, j1, j2⟩
  · exact same _ rfl

/-! ### Rows -/

/-- The cells of a row after all changes that it will apply. -/
def full (ds : List SDelta) (r : RowObj) : Cells := (ds.drop (r.schema + 1)).foldl applySchema r.cells

theorem full_resolve (ds : List SDelta) (r : RowObj) : full ds (resolve ds r) = full ds r ∧
    (resolve ds r).cells = full ds r ∧ (resolve ds r).key = r.key ∧
    (r.schema ≤ ds.length → (resolve ds r).schema ≤ ds.length) := by
  rw [resolve]
  split
  · rename_i h
    have : ds.drop (r.schema + 1) = [] := List.drop_eq_nil_of_le (by omega)
    exact ⟨rfl, by simp [full, this], rfl, id⟩
  · rename_i h
    split
    · rename_i h2
      exact ⟨rfl, by simp [full, h2], rfl, id⟩
    · rename_i d es h2
      refine ⟨?_, by simp only [full, h2], rfl, fun _ => by simp⟩
      have h3 : ds.length - 1 + 1 = ds.length := by omega
      simp only [full, h3, List.drop_length, h2, List.foldl_nil]

/-- What a new change does to the cells: nothing if it is the first one since the row was inserted. -/
theorem full_append {ds es : List SDelta} {r : RowObj} (h : r.schema ≤ ds.length) :
    full (ds ++ es) r = (if r.schema = ds.length then es.drop 1 else es).foldl applySchema (full ds r) := by
  simp only [full]
  rw [List.drop_append]
  split
  · rename_i e
    have h1 : r.schema + 1 - ds.length = 1 := by omega
    have h2 : ds.drop (r.schema + 1) = [] := List.drop_eq_nil_of_le (by omega)
    rw [h1, h2]; rfl
  · rename_i e
    have h1 : r.schema + 1 - ds.length = 0 := by omega
    rw [h1, List.drop_zero, List.foldl_append]

/-- The row `r`, inserted with the cells `c` when there were `v` changes. -/
structure Row33 (m : Model) (r : RowObj) (v : Nat) (c : Cells) : Prop where
  v_le : v ≤ m.deltas.length
  sch_le : r.schema ≤ m.deltas.length
  fresh : r.schema = m.deltas.length ↔ v = m.deltas.length
  cells : normCells (full m.deltas r) = (m.deltas.drop (v + 1)).foldl applySchema c
  chain : Chain m.pk (fun x => (c x).isSome ∨ x = m.pk) (m.deltas.drop v) (· ∈ names m.fields)
  pk : c m.pk = none

theorem normCells_fold (ds : List SDelta) (c : Cells) :
    normCells (ds.foldl applySchema c) = ds.foldl applySchema (normCells c) := by
  induction ds generalizing c with
  | nil => rfl
  | cons d ds ih =>
    rw [List.foldl_cons, List.foldl_cons, ih]
    congr 1
    funext x
    cases d with
    | add k =>
      simp only [applySchema, normCells]
      cases c k with
      | some v => rfl
      | none => simp only [Option.map_none, upd]; split <;> rfl
    | rem k => simp only [applySchema, normCells, upd]; split <;> rfl

/-- The column that the row is wrong about: that of the first change after the row was inserted. -/
def missed (m : Model) (v : Nat) : Option String := (m.deltas[v]?).map SDelta.name

theorem Row33.agree {m : Model} {r : RowObj} {v : Nat} {c : Cells} (h : Row33 m r v c) :
    (∀ x, missed m v ≠ some x → normCells (full m.deltas r) x = see c (m.deltas.drop v) x) ∧
    (∀ x, (see c (m.deltas.drop v) x).isSome ↔ x ∈ names m.fields ∧ x ≠ m.pk) := by
  have hdom : ∀ x, (c x).isSome ↔ ((c x).isSome ∨ x = m.pk) ∧ x ≠ m.pk := by
    intro x
    constructor
    · intro hx
      refine ⟨.inl hx, ?_⟩
      rintro rfl
      rw [h.pk] at hx; cases hx
    · rintro ⟨hx | hx, h2⟩
      · exact hx
      · exact absurd hx h2
  rw [h.cells]
  by_cases hv : v < m.deltas.length
  · have hd : m.deltas.drop v = m.deltas[v] :: m.deltas.drop (v + 1) := List.drop_eq_getElem_cons hv
    have hm : missed m v = some (SDelta.name m.deltas[v]) := by simp [missed, hv]
    have hc := h.chain
    rw [hd] at hc ⊢
    rw [hm]
    generalize m.deltas[v] = d at *
    have hsee : see c (d :: m.deltas.drop (v + 1)) = see (seeOne c d) (m.deltas.drop (v + 1)) := rfl
    rw [hsee]
    cases d with
    | add k =>
      have hk : k ≠ m.pk := fun e => hc.1 (.inr e)
      refine fold_agree hc.2 (.inr (.inr rfl)) ?_ ?_
      · intro x
        simp only [seeOne, upd]
        split
        · rename_i e; subst e; simp [hk]
        · rename_i e; simp only [e, false_or]; exact hdom x
      · intro x hx
        simp only [seeOne, upd]
        split
        · rename_i e; subst e; exact absurd rfl hx
        · rfl
    | rem k =>
      refine fold_agree hc.2.2 ⟨fun e => hc.2.1 e.symm, .inr rfl⟩ ?_ ?_
      · intro x
        simp only [seeOne, upd]
        split
        · rename_i e; subst e; simp
        · rename_i e; simp only [e, not_false_eq_true, ne_eq, true_and]; exact hdom x
      · intro x hx
        simp only [seeOne, upd]
        split
        · rename_i e; subst e; exact absurd rfl hx
        · rfl
  · have h1 : m.deltas.drop v = [] := List.drop_eq_nil_of_le (by omega)
    have h2 : m.deltas.drop (v + 1) = [] := List.drop_eq_nil_of_le (by omega)
    have hc := h.chain
    rw [h1] at hc ⊢
    rw [h2]
    exact fold_agree (y := missed m v) hc (.inr rfl) hdom (fun _ _ => rfl)

/-- The invariant. -/
structure HInv (t : Tbl) (A : HTable) : Prop where
  model : ModelOk t.model
  pkn : PkNonNull t.model
  nodup : (t.idx.map (·.1)).Nodup
  rows : ∀ e ∈ t.idx, e.1.uniq = t.model.pkTag.uniq ∧ ∃ r v c, t.heap[e.2]? = some r ∧ r.key = e.1 ∧
    A e.1 = some (v, c) ∧ Row33 t.model r v c
  dom : ∀ k, k ∉ t.idx.map (·.1) → A k = none

theorem HInv.lookup {t : Tbl} {A : HTable} (h : HInv t A) (k : Key) :
    (kget t.idx k = none ∧ A k = none) ∨ ∃ i r v c, kget t.idx k = some i ∧ t.heap[i]? = some r ∧ r.key = k ∧
      A k = some (v, c) ∧ k.uniq = t.model.pkTag.uniq ∧ Row33 t.model r v c := by
  cases hi : kget t.idx k with
  | none => exact .inl ⟨rfl, h.dom k (kget_none.1 hi)⟩
  | some i =>
    obtain ⟨hu, r, v, c, h1, h2, h3, h4⟩ := h.rows _ (kget_mem hi)
    exact .inr ⟨i, r, v, c, rfl, h1, h2, h3, hu, h4⟩

/-- `ALTER MODEL` keeps the invariant. -/
theorem HInv.alter {t : Tbl} {A : HTable} (h : HInv t A) {perm : Fields → Fields} (hperm : ∀ l, (perm l).Perm l)
    (k : AlterKind) : HInv { t with model := alterModel perm t.model k } A := by
  obtain ⟨h1, h2, h3, h4, es, h5, h6⟩ := alterModel_spec hperm h.model k
  refine ⟨h1, h2 h.pkn, h.nodup, ?_, h.dom⟩
  intro e he
  obtain ⟨hu, r, v, c, i1, i2, i3, i4⟩ := h.rows e he
  refine ⟨by rw [h4]; exact hu, r, v, c, i1, i2, i3, ?_⟩
  have hvl := i4.v_le
  have hsl := i4.sch_le
  refine ⟨?_, ?_, ?_, ?_, ?_, by rw [h3]; exact i4.pk⟩
  · simp only [h5, List.length_append]; omega
  · simp only [h5, List.length_append]; omega
  · simp only [h5, List.length_append]
    have := i4.fresh
    omega
  · simp only [h5]
    rw [full_append hsl, normCells_fold, i4.cells, List.drop_append, List.foldl_append]
    by_cases hv : v = t.model.deltas.length
    · have e1 : v + 1 - t.model.deltas.length = 1 := by omega
      rw [if_pos (i4.fresh.2 hv), e1]
    · have e1 : v + 1 - t.model.deltas.length = 0 := by omega
      rw [if_neg (fun hh => hv (i4.fresh.1 hh)), e1, List.drop_zero]
  · simp only [h5, h3]
    rw [List.drop_append]
    have e1 : v - t.model.deltas.length = 0 := by omega
    rw [e1, List.drop_zero]
    exact i4.chain.snoc h6

/-- Replacing a row by its resolved form keeps the invariant. -/
theorem HInv.resolved {t : Tbl} {A : HTable} (h : HInv t A) {i : Nat} {r : RowObj} (hr : t.heap[i]? = some r) :
    HInv (setRow t i (resolve t.model.deltas r)) A := by
  refine ⟨h.model, h.pkn, h.nodup, ?_, h.dom⟩
  intro e he
  obtain ⟨hu, r', v, c, i1, i2, i3, i4⟩ := h.rows e he
  refine ⟨hu, ?_⟩
  simp only [setRow]
  rw [List.getElem?_set]
  by_cases hie : i = e.2
  · have hlt : i < t.heap.length := (List.getElem?_eq_some_iff.1 hr).1
    rw [if_pos hie, if_pos hlt]
    rw [← hie, hr] at i1
    cases i1
    obtain ⟨f1, f2, f3, f4⟩ := full_resolve t.model.deltas r
    refine ⟨_, v, c, rfl, by rw [f3]; exact i2, i3, i4.v_le, f4 i4.sch_le, ?_, by rw [f1]; exact i4.cells, i4.chain, i4.pk⟩
    constructor
    · intro hs
      refine i4.fresh.1 ?_
      have := i4.sch_le
      revert hs
      rw [resolve]
      split
      · exact id
      · split
        · exact id
        · rename_i hh _ _ _ _
          intro hs
          simp only at hs
          omega
    · intro hv
      have := i4.fresh.2 hv
      rw [resolve, if_pos (by omega)]
      exact this
  · rw [if_neg hie]
    exact ⟨r', v, c, i1, i2, i3, i4⟩

theorem HInv.allLoop {A : HTable} (ks : List String) : ∀ (es : List (Key × Nat)) {t : Tbl}, HInv t A →
    HInv (allLoop ks es t).1 A ∧ (allLoop ks es t).1.model = t.model
  | [], t, h => ⟨h, rfl⟩
  | (k, i) :: es, t, h => by
    rw [Dml.allLoop]
    cases hr : t.heap[i]? with
    | none => exact ⟨h, rfl⟩
    | some r =>
      simp only
      have h1 := h.resolved hr
      split
      · exact ⟨h1, rfl⟩
      · obtain ⟨h2, h3⟩ := HInv.allLoop ks es h1
        split <;> rename_i heq <;> rw [heq] at h2 h3 <;> exact ⟨h2, h3⟩

theorem see_now {A : HTable} {m : Model} (k : Key) : A.now m k = none ↔ A k = none := by
  simp [HTable.now]

theorem rowOf_pk (cols : Fields) (pk : String) (d : InsData) : rowOf cols pk d pk = none := by simp [rowOf]

/-- **INSERT** -/
theorem HInv.insert {F : FloatOps} {t : Tbl} {A : HTable} (h : HInv t A) {d : InsData} (hd : d.Wf) :
    (∃ e, (execInsert t d).2 = .err e ∧ SpecStep F t.model (A.now t.model) (.insert d) (A.now t.model) (.err e) ∧
      HInv (execInsert t d).1 A ∧ (execInsert t d).1.model = t.model) ∨
    (∃ v, InsertOk t.model.fields d ∧ assoc (pairs t.model.fields d) t.model.pk = some v ∧ A (keyOfCell v) = none ∧
      (execInsert t d).2 = .empty ∧ (execInsert t d).1.model = t.model ∧
      HInv (execInsert t d).1 (fun k => if k = keyOfCell v then
        some (t.model.deltas.length, rowOf t.model.fields t.model.pk d) else A k)) := by
  by_cases hok : InsertOk t.model.fields d
  · obtain ⟨v, c, h1, h2, h3, h4, h5⟩ := prepareInsert_ok h.model h.pkn hd hok
    rcases h.lookup (keyOfCell v) with ⟨hi, ha⟩ | ⟨i, r, w, c', hi, hr, _, ha, _⟩
    · refine .inr ⟨v, hok, h1, ha, ?_⟩
      have he : execInsert t d = ({ t with
          heap := t.heap ++ [⟨keyOfCell v, c, t.model.deltas.length, t.ver⟩]
          idx := t.idx ++ [(keyOfCell v, t.heap.length)]
          ver := t.ver + 1
          queue := t.queue ++ [⟨t.ver, .insert, t.heap.length⟩] }, .empty) := by
        rw [execInsert, h2]; simp only [hi]
      rw [he]
      refine ⟨rfl, rfl, h.model, h.pkn, ?_, ?_, ?_⟩
      · simp only [List.map_append, List.map_cons, List.map_nil]
        rw [List.nodup_append]
        refine ⟨h.nodup, by simp, ?_⟩
        intro a ha' b hb
        simp only [List.mem_singleton] at hb
        subst hb
        rintro rfl
        exact kget_none.1 hi ha'
      · intro e he
        simp only [List.mem_append, List.mem_singleton] at he
        rcases he with he | rfl
        · obtain ⟨hu, r, w, c', i1, i2, i3, i4⟩ := h.rows e he
          refine ⟨hu, r, w, c', ?_, i2, ?_, i4⟩
          · obtain ⟨hlt, _⟩ := List.getElem?_eq_some_iff.1 i1
            simp only [List.getElem?_append_left hlt, i1]
          · have : ¬ e.1 = keyOfCell v := fun e' => kget_none.1 hi (List.mem_map.2 ⟨e, he, e'⟩)
            simp only [this, if_false, i3]
        · refine ⟨h3, ⟨keyOfCell v, c, t.model.deltas.length, t.ver⟩, t.model.deltas.length,
            rowOf t.model.fields t.model.pk d, by simp, rfl, by simp, Nat.le_refl _, Nat.le_refl _,
            ⟨fun _ => rfl, fun _ => rfl⟩, ?_, ?_, rowOf_pk _ _ _⟩
          · have : t.model.deltas.drop (t.model.deltas.length + 1) = [] := List.drop_eq_nil_of_le (by omega)
            simp only [full, this, List.foldl_nil, h4]
          · simp only [List.drop_length]
            intro x
            obtain ⟨f, hf, _⟩ := h.model.pk
            rw [← h4]
            simp only [normCells, Option.isSome_map]
            constructor
            · rintro (hx | rfl)
              · cases hg : fget t.model.fields x with
                | none => rw [(h5 x).2 (.inl hg)] at hx; cases hx
                | some g => exact Gns.fget_isSome.1 (by simp [hg])
              · exact Gns.fget_isSome.1 (by simp [hf])
            · intro hx
              by_cases hxp : x = t.model.pk
              · exact .inr hxp
              · obtain ⟨g, hg⟩ := Option.isSome_iff_exists.1 (Gns.fget_isSome.2 hx)
                obtain ⟨y, hy, _⟩ := (h5 x).1 g hg hxp
                exact .inl (by simp [hy])
      · intro k hk
        simp only [List.map_append, List.map_cons, List.map_nil, List.mem_append, List.mem_singleton, not_or] at hk
        simp only [hk.2, if_false]
        exact h.dom k hk.1
    · refine .inl ⟨.duplicate, ?_⟩
      have he : execInsert t d = ({ t with ver := t.ver + 1 }, .err .duplicate) := by
        rw [execInsert, h2]; simp only [hi]
      rw [he]
      refine ⟨rfl, .duplicate hok h1 ?_, ⟨h.model, h.pkn, h.nodup, h.rows, h.dom⟩, rfl⟩
      rw [Ne, see_now, ha]; simp
  · refine .inl ⟨.validation, ?_⟩
    have he : execInsert t d = (t, .err .validation) := by rw [execInsert, prepareInsert_bad h.model hd hok]
    rw [he]
    exact ⟨rfl, .invalid hok, h, rfl⟩

/-- **DELETE** -/
theorem HInv.delete {F : FloatOps} {t : Tbl} {A : HTable} (h : HInv t A) (w : Where) :
    (∃ e, (execDelete t w).2 = .err e ∧ SpecStep F t.model (A.now t.model) (.delete w) (A.now t.model) (.err e) ∧
      HInv (execDelete t w).1 A ∧ (execDelete t w).1.model = t.model) ∨
    (∃ k, WhereKey t.model w k ∧ (A k).isSome ∧ (execDelete t w).2 = .empty ∧
      (execDelete t w).1.model = t.model ∧ HInv (execDelete t w).1 (fun x => if x = k then none else A x)) := by
  cases hw : resolveWhere t.model w with
  | none =>
    have he : execDelete t w = ({ t with ver := t.ver + 1 }, .err .unindexed) := by
      rw [execDelete]; simp only [hw]
    rw [he]
    exact .inl ⟨_, rfl, .deleteWhere (where_none hw), ⟨h.model, h.pkn, h.nodup, h.rows, h.dom⟩, rfl⟩
  | some k =>
    have hk := whereKey_iff.1 hw
    rcases h.lookup k with ⟨hi, ha⟩ | ⟨i, r, v, c, hi, hr, _, ha, _⟩
    · have he : execDelete t w = ({ t with ver := t.ver + 1 }, .err .rowNotFound) := by
        rw [execDelete]; simp only [hw, hi]
      rw [he]
      exact .inl ⟨_, rfl, .deleteNone hk ((see_now k).2 ha), ⟨h.model, h.pkn, h.nodup, h.rows, h.dom⟩, rfl⟩
    · have he : execDelete t w =
          ({ t with ver := t.ver + 1, idx := kdel t.idx k, queue := t.queue ++ [⟨t.ver, .delete, i⟩] }, .empty) := by
        rw [execDelete]; simp only [hw, hi]; simp
      rw [he]
      refine .inr ⟨k, hk, by simp [ha], rfl, rfl, h.model, h.pkn, h.nodup.sublist ((kdel_sublist _ _).map _), ?_, ?_⟩
      · intro e he'
        obtain ⟨hu, r', v', c', i1, i2, i3, i4⟩ := h.rows e ((kdel_sublist _ _).subset he')
        refine ⟨hu, r', v', c', i1, i2, ?_, i4⟩
        have : ¬ e.1 = k := by
          intro e'
          have h1 : kget (kdel t.idx k) k = none := by rw [kget_kdel h.nodup]; simp
          exact kget_none.1 h1 (List.mem_map.2 ⟨e, he', e'⟩)
        simp only [this, if_false, i3]
      · intro x hx
        split
        · rfl
        · rename_i e
          have h1 := kget_none.2 hx
          have h2 : kget (kdel t.idx k) x = none := h1
          rw [kget_kdel h.nodup, if_neg e] at h2
          exact h.dom x (kget_none.1 h2)

theorem HInv.select {t : Tbl} {A : HTable} (h : HInv t A) (fs : Option (List String)) (w : Where) :
    HInv (execSelect t fs w).1 A ∧ (execSelect t fs w).1.model = t.model := by
  rw [execSelect]
  cases resolveWhere t.model w with
  | none => exact ⟨h, rfl⟩
  | some k =>
    simp only
    split
    · exact ⟨h, rfl⟩
    · rename_i i r heq
      have hr : t.heap[i]? = some r := by
        cases hi : kget t.idx k with
        | none => rw [hi] at heq; cases heq
        | some j =>
          rw [hi] at heq
          simp only [Option.bind_some] at heq
          cases hj : t.heap[j]? with
          | none => rw [hj] at heq; cases heq
          | some r' => rw [hj] at heq; cases heq; exact hj
      exact ⟨h.resolved hr, rfl⟩

theorem HInv.selectAll {t : Tbl} {A : HTable} (h : HInv t A) (it : List (Key × Nat)) (fs : Option (List String)) (n : Nat) :
    HInv (execSelectAll t it fs n).1 A ∧ (execSelectAll t it fs n).1.model = t.model := by
  rw [execSelectAll]
  split
  · exact ⟨h, rfl⟩
  · have := HInv.allLoop (fs.getD (colNames t.model.fields)) (it.take n) h
    split <;> rename_i heq <;> rw [heq] at this <;> exact this

/-- A history without UPDATE. -/
def HOk : HOp → Prop
  | .stmt (.insert d) => d.Wf
  | .stmt (.update _ _) => False
  | .stmt _ => True
  | .alter perm _ => ∀ l, (perm l).Perm l

theorem hrun_spec {F : FloatOps} {order : List (Key × Nat) → List (Key × Nat)} : ∀ {os : List HOp} {t : Tbl} {A : HTable},
    HInv t A → (∀ o ∈ os, HOk o) →
    ∃ B, HSpec F t.model A os (hrun F order t os).1.model B (hrun F order t os).2 ∧ HInv (hrun F order t os).1 B
  | [], t, A, h, _ => ⟨A, .nil, h⟩
  | .alter perm k :: os, t, A, h, ho => by
    obtain ⟨B, h1, h2⟩ := hrun_spec (F := F) (order := order) (os := os)
      (h.alter (perm := perm) (ho (.alter perm k) (by simp)) k)
      (fun o hm => ho o (by simp [hm]))
    exact ⟨B, .alter h1, h2⟩
  | .stmt s :: os, t, A, h, ho => by
    have hrest : ∀ o ∈ os, HOk o := fun o hm => ho o (by simp [hm])
    have hs := ho (.stmt s) (by simp)
    cases s with
    | update as w => exact hs.elim
    | insert d =>
      rcases h.insert (F := F) hs with ⟨e, h1, h2, h3, h4⟩ | ⟨v, h1, h2, h3, h4, h5, h6⟩
      · obtain ⟨B, i1, i2⟩ := hrun_spec (F := F) (order := order) (os := os) h3 hrest
        rw [h4] at i1
        refine ⟨B, ?_, i2⟩
        simp only [hrun, exec, h1]
        exact .other h2 ⟨e, rfl⟩ i1
      · obtain ⟨B, i1, i2⟩ := hrun_spec (F := F) (order := order) (os := os) h6 hrest
        rw [h5] at i1
        refine ⟨B, ?_, i2⟩
        simp only [hrun, exec, h4]
        exact .insert h1 h2 h3 i1
    | delete w =>
      rcases h.delete (F := F) w with ⟨e, h1, h2, h3, h4⟩ | ⟨k, h1, h2, h3, h4, h5⟩
      · obtain ⟨B, i1, i2⟩ := hrun_spec (F := F) (order := order) (os := os) h3 hrest
        rw [h4] at i1
        refine ⟨B, ?_, i2⟩
        simp only [hrun, exec, h1]
        exact .deleteErr h2 ⟨e, rfl⟩ i1
      · obtain ⟨B, i1, i2⟩ := hrun_spec (F := F) (order := order) (os := os) h5 hrest
        rw [h4] at i1
        refine ⟨B, ?_, i2⟩
        simp only [hrun, exec, h3]
        exact .delete h1 h2 i1
    | select fs w =>
      obtain ⟨h1, h2⟩ := h.select fs w
      obtain ⟨B, i1, i2⟩ := hrun_spec (F := F) (order := order) (os := os) h1 hrest
      rw [h2] at i1
      exact ⟨B, .select i1, i2⟩
    | selectAll fs n =>
      obtain ⟨h1, h2⟩ := h.selectAll (order t.idx) fs n
      obtain ⟨B, i1, i2⟩ := hrun_spec (F := F) (order := order) (os := os) h1 hrest
      rw [h2] at i1
      exact ⟨B, .selectAll i1, i2⟩

end Verif.Dml
