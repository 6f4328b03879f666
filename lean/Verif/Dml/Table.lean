import Verif.Dml.Insert
import Verif.Dml.UpdateTheorems
/-!
C31: the rows of a model behave like a table.
-/
namespace Verif.Dml
open Verif.Gns (SDelta Model upd fget ModelOk FieldsOk PkNonNull names fget_mem fget_of_mem fget_none)
open Verif.Enc (Fields)
open Verif.Lex (Lit)

/-! ### The index -/

theorem kget_mem {es : List (Key × Nat)} {k : Key} {i : Nat} (h : kget es k = some i) : (k, i) ∈ es := by
  induction es with
  | nil => cases h
  | cons e es ih =>
    obtain ⟨x, j⟩ := e
    rw [kget] at h
    split at h
    · rename_i e; subst e; cases h; simp
    · exact List.mem_cons_of_mem _ (ih h)

theorem kget_none {es : List (Key × Nat)} {k : Key} : kget es k = none ↔ k ∉ es.map (·.1) := by
  induction es with
  | nil => simp [kget]
  | cons e es ih =>
    obtain ⟨x, j⟩ := e
    rw [kget]
    by_cases h : x = k
    · simp [h]
    · have h' : ¬ k = x := fun e => h e.symm
      simp only [h, if_false, ih, List.map_cons, List.mem_cons, h', false_or]

theorem kget_of_mem {es : List (Key × Nat)} (hn : (es.map (·.1)).Nodup) {k : Key} {i : Nat} (h : (k, i) ∈ es) :
    kget es k = some i := by
  induction es with
  | nil => cases h
  | cons e es ih =>
    obtain ⟨x, j⟩ := e
    rw [List.map_cons, List.nodup_cons] at hn
    rw [kget]
    rcases List.mem_cons.1 h with h | h
    · cases h; simp
    · have : x ≠ k := by
        rintro rfl
        exact hn.1 (List.mem_map.2 ⟨_, h, rfl⟩)
      simp [this, ih hn.2 h]

theorem kget_append {es fs : List (Key × Nat)} (k : Key) :
    kget (es ++ fs) k = match kget es k with | some i => some i | none => kget fs k := by
  induction es with
  | nil => rfl
  | cons e es ih =>
    obtain ⟨x, j⟩ := e
    simp only [List.cons_append, kget]
    split
    · rfl
    · exact ih

theorem kdel_sublist (es : List (Key × Nat)) (k : Key) : (kdel es k).Sublist es := by
  induction es with
  | nil => exact .slnil
  | cons e es ih =>
    obtain ⟨x, j⟩ := e
    rw [kdel]
    split
    · exact List.sublist_cons_self ..
    · exact ih.cons₂ _

theorem kget_kdel {es : List (Key × Nat)} (hn : (es.map (·.1)).Nodup) (k x : Key) :
    kget (kdel es k) x = if x = k then none else kget es x := by
  induction es with
  | nil => simp [kdel, kget]
  | cons e es ih =>
    obtain ⟨y, j⟩ := e
    rw [List.map_cons, List.nodup_cons] at hn
    rw [kdel]
    by_cases hy : y = k
    · subst hy
      rw [if_pos rfl]
      split
      · rename_i e; subst e; exact kget_none.2 hn.1
      · rename_i e
        have e' : ¬ y = x := fun h => e h.symm
        simp [kget, e']
    · rw [if_neg hy, kget, kget, ih hn.2]
      by_cases hx : y = x
      · subst hx; simp [hy]
      · simp [hx]

/-! ### Invariant and abstraction -/

/-- What holds of every row that the index refers to. -/
structure RowInv (m : Model) (heap : List RowObj) (e : Key × Nat) : Prop where
  uniq : e.1.uniq = m.pkTag.uniq
  row : ∃ r, heap[e.2]? = some r ∧ r.key = e.1 ∧ r.schema = m.deltas.length ∧ RowOk m.fields m.pk r.cells

/-- The invariant of a table of the model `m`. -/
structure Inv (m : Model) (t : Tbl) : Prop where
  model : t.model = m
  nodup : (t.idx.map (·.1)).Nodup
  rows : ∀ e ∈ t.idx, RowInv m t.heap e

/-- The table that is represented. -/
def abs (t : Tbl) : ATable := fun k => (kget t.idx k).bind fun i => (t.heap[i]?).map fun r => normCells r.cells

theorem resolve_id {ds : List SDelta} {r : RowObj} (h : r.schema = ds.length) : resolve ds r = r := by
  rw [resolve, if_pos (by omega)]

theorem set_self {α : Type} {l : List α} {i : Nat} {x : α} (h : l[i]? = some x) : l.set i x = l := by
  apply List.ext_getElem?
  intro n
  rw [List.getElem?_set]
  split
  · rename_i e; subst e
    obtain ⟨hlt, _⟩ := List.getElem?_eq_some_iff.1 h
    rw [if_pos hlt, h]
  · rfl

theorem whereKey_iff {m : Model} {w : Where} {k : Key} : resolveWhere m w = some k ↔ WhereKey m w k := by
  rw [resolveWhere, WhereKey]
  cases wget w m.pk with
  | none => simp
  | some c =>
    simp only [Option.some.injEq, exists_eq_left']
    constructor
    · intro h
      split at h
      · rename_i hc
        simp only [Bool.and_eq_true, decide_eq_true_eq] at hc
        cases h
        exact ⟨hc.1, rfl, hc.2⟩
      · cases h
    · rintro ⟨h1, rfl, h2⟩
      simp [h1, h2]

theorem where_none {m : Model} {w : Where} (h : resolveWhere m w = none) : ∀ k, ¬ WhereKey m w k := by
  intro k hk
  rw [whereKey_iff.2 hk] at h
  cases h

/-- Reading the row of a key. -/
theorem lookup_row {m : Model} {t : Tbl} (ht : Inv m t) (k : Key) :
    (kget t.idx k = none ∧ abs t k = none) ∨
    ∃ i r, kget t.idx k = some i ∧ t.heap[i]? = some r ∧ abs t k = some (normCells r.cells) ∧ r.key = k ∧
      k.uniq = m.pkTag.uniq ∧ r.schema = m.deltas.length ∧ RowOk m.fields m.pk r.cells := by
  cases hi : kget t.idx k with
  | none => exact .inl ⟨rfl, by simp [abs, hi]⟩
  | some i =>
    obtain ⟨hu, r, h1, h2, h3, h4⟩ := ht.rows _ (kget_mem hi)
    exact .inr ⟨i, r, rfl, h1, by simp [abs, hi, h1], h2, hu, h3, h4⟩

/-! ### The conditions -/

/-- What is asked of one statement that meets the table `A`. -/
def StmtOk (F : FloatOps) (m : Model) (A : ATable) : Stmt → Prop
  | .insert d => d.Wf
  | .update as w => ∀ k c, WhereKey m w k → A k = some c → Plain F m.fields as c ∧
      ((∃ e, SpecUpd F m.fields m.pk as c (.error e)) → Undoable m.fields as)
  | _ => True

/-- What is asked of a list of statements. -/
def Fine (F : FloatOps) (m : Model) : List Stmt → ATable → Prop
  | [], _ => True
  | s :: ss, A => StmtOk F m A s ∧ ∀ B r, SpecStep F m A s B r → Fine F m ss B

/-! ### The statements -/

theorem execInsert_spec {F : FloatOps} {m : Model} (hm : ModelOk m) (hpk : PkNonNull m) {t : Tbl} (ht : Inv m t)
    {d : InsData} (hd : d.Wf) : Inv m (execInsert t d).1 ∧
      SpecStep F m (abs t) (.insert d) (abs (execInsert t d).1) (execInsert t d).2.norm := by
  have hmod := ht.model
  by_cases h : InsertOk m.fields d
  · obtain ⟨v, c, h1, h2, h3, h4, h5⟩ := prepareInsert_ok hm hpk hd h
    rw [← hmod] at h2
    rcases lookup_row ht (keyOfCell v) with ⟨hi, ha⟩ | ⟨i, r, hi, hr, ha, _⟩
    · have he : execInsert t d = ({ t with
          heap := t.heap ++ [⟨keyOfCell v, c, t.model.deltas.length, t.ver⟩]
          idx := t.idx ++ [(keyOfCell v, t.heap.length)]
          ver := t.ver + 1
          queue := t.queue ++ [⟨t.ver, .insert, t.heap.length⟩] }, .empty) := by
        rw [execInsert, h2]; simp only [hi]
      rw [he]
      constructor
      · refine ⟨hmod, ?_, ?_⟩
        · simp only [List.map_append, List.map_cons, List.map_nil]
          rw [List.nodup_append]
          refine ⟨ht.nodup, by simp, ?_⟩
          intro a ha' b hb
          simp only [List.mem_singleton] at hb
          subst hb
          rintro rfl
          exact kget_none.1 hi ha'
        · intro e he
          simp only [List.mem_append, List.mem_singleton] at he
          rcases he with he | rfl
          · obtain ⟨hu, r, i1, i2⟩ := ht.rows e he
            refine ⟨hu, r, ?_, i2⟩
            obtain ⟨hlt, _⟩ := List.getElem?_eq_some_iff.1 i1
            simp only [List.getElem?_append_left hlt, i1]
          · exact ⟨h3, ⟨keyOfCell v, c, t.model.deltas.length, t.ver⟩, by simp, rfl, by simp [hmod], h5⟩
      · have : abs { t with
          heap := t.heap ++ [⟨keyOfCell v, c, t.model.deltas.length, t.ver⟩]
          idx := t.idx ++ [(keyOfCell v, t.heap.length)]
          ver := t.ver + 1
          queue := t.queue ++ [⟨t.ver, .insert, t.heap.length⟩] } =
            fun k => if k = keyOfCell v then some (rowOf m.fields m.pk d) else abs t k := by
          funext k
          simp only [abs, kget_append]
          by_cases e : k = keyOfCell v
          · subst e
            simp [hi, kget, h4]
          · have e' : ¬ keyOfCell v = k := fun h => e h.symm
            rw [if_neg e]
            cases hk : kget t.idx k with
            | none => simp [kget, e']
            | some i =>
              obtain ⟨_, r, i1, _⟩ := ht.rows _ (kget_mem hk)
              obtain ⟨hlt, _⟩ := List.getElem?_eq_some_iff.1 i1
              simp only [Option.bind_some]
              rw [List.getElem?_append_left (show i < t.heap.length from hlt)]
        rw [this]
        exact .insert h h1 ha
    · have he : execInsert t d = ({ t with ver := t.ver + 1 }, .err .duplicate) := by
        rw [execInsert, h2]; simp only [hi]
      rw [he]
      exact ⟨⟨hmod, ht.nodup, ht.rows⟩, .duplicate h h1 (by rw [ha]; simp)⟩
  · have he : execInsert t d = (t, .err .validation) := by
      rw [execInsert, hmod, prepareInsert_bad hm hd h]
    rw [he]
    exact ⟨ht, .invalid h⟩

theorem execDelete_spec {F : FloatOps} {m : Model} {t : Tbl} (ht : Inv m t) (w : Where) :
    Inv m (execDelete t w).1 ∧
      SpecStep F m (abs t) (.delete w) (abs (execDelete t w).1) (execDelete t w).2.norm := by
  have hmod := ht.model
  cases hw : resolveWhere m w with
  | none =>
    have he : execDelete t w = ({ t with ver := t.ver + 1 }, .err .unindexed) := by
      rw [execDelete]; simp only [hmod, hw]
    rw [he]
    exact ⟨⟨hmod, ht.nodup, ht.rows⟩, .deleteWhere (where_none hw)⟩
  | some k =>
    have hk := whereKey_iff.1 hw
    rcases lookup_row ht k with ⟨hi, ha⟩ | ⟨i, r, hi, hr, ha, _⟩
    · have he : execDelete t w = ({ t with ver := t.ver + 1 }, .err .rowNotFound) := by
        rw [execDelete]; simp only [hmod, hw, hi]
      rw [he]
      exact ⟨⟨hmod, ht.nodup, ht.rows⟩, .deleteNone hk ha⟩
    · have he : execDelete t w =
          ({ t with ver := t.ver + 1, idx := kdel t.idx k, queue := t.queue ++ [⟨t.ver, .delete, i⟩] }, .empty) := by
        rw [execDelete]; simp only [hmod, hw, hi]; simp
      rw [he]
      refine ⟨⟨hmod, ht.nodup.sublist ((kdel_sublist _ _).map _),
        fun e he => ht.rows e ((kdel_sublist _ _).subset he)⟩, ?_⟩
      have : abs { t with ver := t.ver + 1, idx := kdel t.idx k, queue := t.queue ++ [⟨t.ver, .delete, i⟩] } =
          fun x => if x = k then none else abs t x := by
        funext x
        simp only [abs, kget_kdel ht.nodup]
        split <;> rfl
      rw [this]
      exact .delete hk ha

theorem execUpdate_spec {F : FloatOps} {m : Model} (hm : ModelOk m) {t : Tbl} (ht : Inv m t) {as : List Asn} {w : Where}
    (hs : StmtOk F m (abs t) (.update as w)) : Inv m (execUpdate F t as w).1 ∧
      SpecStep F m (abs t) (.update as w) (abs (execUpdate F t as w).1) (execUpdate F t as w).2.norm := by
  have hmod := ht.model
  cases hw : resolveWhere m w with
  | none =>
    have he : execUpdate F t as w = (t, .err .unindexed) := by rw [execUpdate, hmod, hw]
    rw [he]
    exact ⟨ht, .updateWhere (where_none hw)⟩
  | some k =>
    have hk := whereKey_iff.1 hw
    rcases lookup_row ht k with ⟨hi, ha⟩ | ⟨i, r, hi, hr, ha, hkey, hu, hv, hrow⟩
    · have he : execUpdate F t as w = (t, .err .rowNotFound) := by rw [execUpdate, hmod, hw]; simp [hi]
      rw [he]
      exact ⟨ht, .updateNone hk ha⟩
    · obtain ⟨hp, hun⟩ := hs k _ hk ha
      subst hmod
      rcases C32_update_partial (fun k f h => hm.fields.2 _ (fget_mem h)) hw hi hr hrow hp hun with
        ⟨c, h1, h2, c', h3, h4, h5⟩ | ⟨e, h1, h2, h3⟩
      · rw [h2, h3]
        have hlt : i < t.heap.length := (List.getElem?_eq_some_iff.1 hr).1
        constructor
        · refine ⟨rfl, ht.nodup, fun e he => ?_⟩
          obtain ⟨hue, r', i1, i2, i3, i4⟩ := ht.rows e he
          refine ⟨hue, ?_⟩
          simp only [List.getElem?_set]
          by_cases hie : i = e.2
          · simp only [hie, if_true]
            rw [← hie, hr] at i1
            cases i1
            rw [if_pos (by omega)]
            exact ⟨_, rfl, i2, i3, h5⟩
          · simp only [hie, if_false]
            exact ⟨r', i1, i2, i3, i4⟩
        · have : abs { t with
              heap := t.heap.set i { r with cells := c', revised := t.ver }
              ver := t.ver + 1
              queue := t.queue ++ [⟨t.ver, .update, i⟩] } = fun x => if x = k then some c else abs t x := by
            funext x
            simp only [abs]
            split
            · rename_i e; subst e
              simp [hi, List.getElem?_set, hlt, h4]
            · rename_i e
              cases hx : kget t.idx x with
              | none => rfl
              | some j =>
                obtain ⟨_, r', i1, i2, _⟩ := ht.rows _ (kget_mem hx)
                have : ¬ i = j := by
                  rintro rfl
                  rw [hr] at i1
                  cases i1
                  exact e (i2.symm.trans hkey)
                simp [List.getElem?_set, this]
          rw [this]
          exact .update hk ha h1
      · rw [h2, h3]
        exact ⟨⟨rfl, ht.nodup, ht.rows⟩, .updateErr hk ha h1⟩

/-- The column exists, or is the primary key. -/
theorem row_value {m : Model} (hm : ModelOk m) {c : Cells} (hrow : RowOk m.fields m.pk c) (k : Key) (col : String) :
    (valueOf m k (normCells c) col = none ↔ fget m.fields col = none) := by
  obtain ⟨f, hf, _⟩ := hm.pk
  simp only [valueOf]
  split
  · rename_i e; subst e; simp [hf]
  · rename_i e
    cases hg : fget m.fields col with
    | none => simp [normCells, (hrow col).2 (.inl hg)]
    | some g =>
      obtain ⟨x, hx, _⟩ := (hrow col).1 g hg e
      simp [normCells, hx]

theorem norm_keyCellSel (k : Key) : norm (keyCellSel k) = keyCellSel k := by cases k <;> rfl

theorem readFields_spec {m : Model} {c : Cells} (hpk : c m.pk = none) (k : Key) (ks : List String) :
    (readFields m.pk (keyCellSel k) c ks = none ∧ ∃ x ∈ ks, valueOf m k (normCells c) x = none) ∨
    ∃ vs, readFields m.pk (keyCellSel k) c ks = some vs ∧ Values m k (normCells c) ks (normList vs) := by
  induction ks with
  | nil => exact .inr ⟨[], rfl, by simp [Values, normList]⟩
  | cons x xs ih =>
    rw [readFields]
    by_cases hx : x = m.pk
    · subst hx
      rw [hpk]
      simp only [if_true]
      rcases ih with ⟨h1, y, hy, h2⟩ | ⟨vs, h1, h2⟩
      · exact .inl ⟨by simp [h1], y, by simp [hy], h2⟩
      · refine .inr ⟨keyCellSel k :: vs, by simp [h1], ?_⟩
        simp only [Values, List.map_cons, normList] at h2 ⊢
        rw [h2]
        simp [valueOf, norm_keyCellSel]
    · cases hc : c x with
      | none =>
        refine .inl ⟨by simp [hx], x, by simp, by simp [valueOf, hx, normCells, hc]⟩
      | some v =>
        rcases ih with ⟨h1, y, hy, h2⟩ | ⟨vs, h1, h2⟩
        · exact .inl ⟨by simp [h1], y, by simp [hy], h2⟩
        · refine .inr ⟨v :: vs, by simp [h1], ?_⟩
          simp only [Values, List.map_cons, normList] at h2 ⊢
          rw [h2]
          simp [valueOf, hx, normCells, hc]

theorem execSelect_spec {F : FloatOps} {m : Model} (hm : ModelOk m) {t : Tbl} (ht : Inv m t)
    (fs : Option (List String)) (w : Where) : Inv m (execSelect t fs w).1 ∧
      SpecStep F m (abs t) (.select fs w) (abs (execSelect t fs w).1) (execSelect t fs w).2.norm := by
  have hmod := ht.model
  cases hw : resolveWhere m w with
  | none =>
    have he : execSelect t fs w = (t, .err .unindexed) := by rw [execSelect, hmod, hw]
    rw [he]
    exact ⟨ht, .selectWhere (where_none hw)⟩
  | some k =>
    have hk := whereKey_iff.1 hw
    rcases lookup_row ht k with ⟨hi, ha⟩ | ⟨i, r, hi, hr, ha, hkey, hu, hv, hrow⟩
    · have he : execSelect t fs w = (t, .err .rowNotFound) := by rw [execSelect, hmod, hw]; simp [hi]
      rw [he]
      exact ⟨ht, .selectNone hk ha⟩
    · subst hmod
      have he : execSelect t fs w = (t,
          match readFields t.model.pk (keyCellSel k) r.cells (selCols t.model fs) with
          | some cs => .row cs
          | none => .err .unknownField) := by
        rw [execSelect, hw]
        simp only [hi, hr, Option.bind_some, Option.map_some, resolve_id hv, setRow, set_self hr]
        rfl
      rw [he]
      refine ⟨ht, ?_⟩
      rcases readFields_spec ((hrow _).2 (.inr rfl)) k (selCols t.model fs) with ⟨h1, x, hx, h2⟩ | ⟨vs, h1, h2⟩
      · rw [h1]
        exact .selectErr hk ha ⟨x, hx, (row_value hm hrow k x).1 h2⟩
      · rw [h1]
        exact .select hk ha h2

theorem norm_keyCellAll {t : Tag} {k : Key} (h : k.uniq = t.uniq) (ht : t.uniq ≠ .illegal) :
    norm (keyCellAll t k) = keyCellSel k := by
  cases k <;> simp_all [keyCellAll, keyCellSel, norm, Key.uniq]

theorem readAll_spec {m : Model} (hm : ModelOk m) {c : Cells} (hrow : RowOk m.fields m.pk c) {k : Key}
    (hu : k.uniq = m.pkTag.uniq) (ks : List String) (hks : ∀ x ∈ ks, fget m.fields x ≠ none) :
    ∃ vs, readAll m.pk (keyCellAll m.pkTag k) c ks = some vs ∧ Values m k (normCells c) ks (normList vs) := by
  induction ks with
  | nil => exact ⟨[], rfl, by simp [Values, normList]⟩
  | cons x xs ih =>
    obtain ⟨vs, h1, h2⟩ := ih (fun y hy => hks y (by simp [hy]))
    rw [readAll]
    split
    · rename_i e; subst e
      refine ⟨keyCellAll m.pkTag k :: vs, by simp [h1], ?_⟩
      simp only [Values, List.map_cons, normList] at h2 ⊢
      rw [h2, norm_keyCellAll hu hm.uniq]
      simp [valueOf]
    · rename_i e
      cases hf : fget m.fields x with
      | none => exact absurd hf (hks x (by simp))
      | some f =>
        obtain ⟨v, hv, _⟩ := (hrow x).1 f hf e
        refine ⟨v :: vs, by simp [hv, h1], ?_⟩
        simp only [Values, List.map_cons, normList] at h2 ⊢
        rw [h2]
        simp [valueOf, e, normCells, hv]

theorem allLoop_spec {m : Model} (hm : ModelOk m) {t : Tbl} (hmod : t.model = m) (ks : List String)
    (hks : ∀ x ∈ ks, fget m.fields x ≠ none) : ∀ (es : List (Key × Nat)), (∀ e ∈ es, RowInv m t.heap e) →
    ∃ rs ras, allLoop ks es t = (t, some rs) ∧ ras.map (·.1) = es.map (·.1) ∧
      Forall2 (fun (e : Key × Nat) (a : Key × Cells) => a.1 = e.1 ∧ (t.heap[e.2]?).map (fun r => normCells r.cells) = some a.2)
        es ras ∧
      Forall2 (fun (a : Key × Cells) vs => Values m a.1 a.2 ks vs) ras (rs.map normList)
  | [], _ => ⟨[], [], rfl, rfl, .nil, .nil⟩
  | (k, i) :: es, h => by
    obtain ⟨hu, r, h1, h2, h3, h4⟩ := h (k, i) (by simp)
    obtain ⟨rs, ras, i1, i2, i3, i4⟩ := allLoop_spec hm hmod ks hks es (fun e he => h e (by simp [he]))
    obtain ⟨vs, j1, j2⟩ := readAll_spec hm h4 hu ks hks
    refine ⟨vs :: rs, (k, normCells r.cells) :: ras, ?_, by simp [i2], .cons ⟨rfl, by simp [h1]⟩ i3, .cons j2 i4⟩
    rw [allLoop]
    simp only [h1]
    subst hmod
    simp only [resolve_id h3, setRow, set_self h1, j1, i1]

theorem forall2_mem_right {α β : Type} {R : α → β → Prop} {as : List α} {bs : List β} (h : Forall2 R as bs) {b : β}
    (hb : b ∈ bs) : ∃ a ∈ as, R a b := by
  induction h with
  | nil => cases hb
  | cons hr _ ih =>
    rcases List.mem_cons.1 hb with rfl | hb
    · exact ⟨_, by simp, hr⟩
    · obtain ⟨a, ha, h⟩ := ih hb
      exact ⟨a, by simp [ha], h⟩

theorem forall2_mem_left {α β : Type} {R : α → β → Prop} {as : List α} {bs : List β} (h : Forall2 R as bs) {a : α}
    (ha : a ∈ as) : ∃ b ∈ bs, R a b := by
  induction h with
  | nil => cases ha
  | cons hr _ ih =>
    rcases List.mem_cons.1 ha with rfl | ha
    · exact ⟨_, by simp, hr⟩
    · obtain ⟨b, hb, h⟩ := ih ha
      exact ⟨b, by simp [hb], h⟩

theorem execSelectAll_spec {F : FloatOps} {m : Model} (hm : ModelOk m) {t : Tbl} (ht : Inv m t)
    {it : List (Key × Nat)} (hit : it.Perm t.idx) (fs : Option (List String)) (n : Nat) :
    Inv m (execSelectAll t it fs n).1 ∧
      SpecStep F m (abs t) (.selectAll fs n) (abs (execSelectAll t it fs n).1) (execSelectAll t it fs n).2.norm := by
  have hmod := ht.model
  subst hmod
  by_cases hbad : fs.isSome && (decide ((colNames t.model.fields).length < (fs.getD (colNames t.model.fields)).length) ||
      (fs.getD (colNames t.model.fields)).any fun k => (fget t.model.fields k).isNone)
  · have he : execSelectAll t it fs n = (t, .err .unknownField) := by
      rw [execSelectAll]; rw [if_pos hbad]
    rw [he]
    refine ⟨ht, .selectAllErr ?_⟩
    simp only [Bool.and_eq_true, Bool.or_eq_true, decide_eq_true_eq, List.any_eq_true, Option.isNone_iff_eq_none] at hbad
    rcases hbad.2 with h | h
    · exact .inl (by simpa [colNames, selCols] using h)
    · exact .inr h
  · have hok : (∀ x ∈ selCols t.model fs, fget t.model.fields x ≠ none) ∧
        (selCols t.model fs).length ≤ t.model.fields.length := by
      cases fs with
      | none =>
        constructor
        · intro x hx
          simp only [selCols, Option.getD_none] at hx
          intro hn
          exact fget_none.1 hn hx
        · simp [selCols]
      | some ks =>
        simp only [Option.isSome_some, Option.getD_some, Bool.true_and, Bool.or_eq_true, decide_eq_true_eq,
          List.any_eq_true, Option.isNone_iff_eq_none, not_or, not_exists, not_and] at hbad
        exact ⟨fun x hx => hbad.2 x hx, by simpa [colNames, selCols] using hbad.1⟩
    have hsub : ∀ e ∈ it.take n, e ∈ t.idx := fun e he => hit.mem_iff.1 (List.mem_of_mem_take he)
    obtain ⟨rs, ras, h1, h2, h3, h4⟩ := allLoop_spec hm rfl (selCols t.model fs) hok.1 (it.take n)
      (fun e he => ht.rows e (hsub e he))
    have he : execSelectAll t it fs n = (t, .rows (selCols t.model fs).length rs) := by
      rw [execSelectAll]
      rw [if_neg hbad]
      have : fs.getD (colNames t.model.fields) = selCols t.model fs := rfl
      simp only [this, h1]
    rw [he]
    refine ⟨ht, ?_⟩
    have hlen : ras.length = (it.take n).length := by
      have := congrArg List.length h2
      simpa using this
    have habs : ∀ e ∈ t.idx, abs t e.1 = (t.heap[e.2]?).map fun r => normCells r.cells := by
      intro e he
      simp [abs, kget_of_mem ht.nodup he]
    refine .selectAll (es := ras) ?_ ?_ ?_ ?_ h4 hok.2
    · rw [h2]
      have hp : (it.map (·.1)).Nodup := (hit.map _).nodup_iff.2 ht.nodup
      exact hp.sublist ((List.take_sublist _ _).map _)
    · intro a ha
      obtain ⟨e, he, hke, hr⟩ := forall2_mem_right h3 ha
      rw [hke, habs e (hsub e he), hr]
    · rw [hlen, List.length_take]; omega
    · intro hlt k c hk
      rw [hlen, List.length_take] at hlt
      have htake : it.take n = it := List.take_of_length_le (by omega)
      rw [htake] at h3
      rcases lookup_row ht k with ⟨_, ha⟩ | ⟨i, r, hi, hr, ha, _⟩
      · rw [ha] at hk; cases hk
      · obtain ⟨a, ha', hka, hra⟩ := forall2_mem_left h3 (hit.mem_iff.2 (kget_mem hi))
        have : a = (k, c) := by
          rw [ha] at hk
          cases hk
          simp only [hr, Option.map_some, Option.some.injEq] at hra
          cases a
          simp_all
        exact this ▸ ha'

/-- One statement. -/
theorem exec_spec {F : FloatOps} {m : Model} (hm : ModelOk m) (hpk : PkNonNull m) {order : List (Key × Nat) → List (Key × Nat)}
    (ho : ∀ l, (order l).Perm l) {t : Tbl} (ht : Inv m t) {s : Stmt} (hs : StmtOk F m (abs t) s) :
    Inv m (exec F order t s).1 ∧
      SpecStep F m (abs t) s (abs (exec F order t s).1) (exec F order t s).2.norm := by
  cases s with
  | insert d => exact execInsert_spec hm hpk ht hs
  | update as w => exact execUpdate_spec hm ht hs
  | delete w => exact execDelete_spec ht w
  | select fs w => exact execSelect_spec hm ht fs w
  | selectAll fs n => exact execSelectAll_spec hm ht (ho _) fs n

/-- Statements one after the other. -/
theorem run_spec {F : FloatOps} {m : Model} (hm : ModelOk m) (hpk : PkNonNull m) {order : List (Key × Nat) → List (Key × Nat)}
    (ho : ∀ l, (order l).Perm l) : ∀ {ss : List Stmt} {t : Tbl}, Inv m t → Fine F m ss (abs t) →
    Inv m (run F order t ss).1 ∧
      SpecRun F m (abs t) ss (abs (run F order t ss).1) ((run F order t ss).2.map Reply.norm)
  | [], t, ht, _ => ⟨ht, .nil⟩
  | s :: ss, t, ht, hf => by
    obtain ⟨h1, h2⟩ := exec_spec hm hpk ho ht hf.1
    obtain ⟨h3, h4⟩ := run_spec hm hpk ho h1 (hf.2 _ _ h2)
    exact ⟨h3, .cons h2 h4⟩

end Verif.Dml
