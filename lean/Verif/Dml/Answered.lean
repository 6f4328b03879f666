import Verif.Dml.Widen
/-!
When a statement on rows returns: the invariant of the rows that it needs, and that every statement keeps it.
-/
namespace Verif.Dml
open Verif.Gns (SDelta Model upd fget ModelOk FieldsOk names fget_mem fget_none AlterKind plan addFields updateFields removeFields
  planUpdate ldeltas ldeltasLoop Expanded interop)
open Verif.Enc (Fields)
open Verif.Lex (Lit)

/-! ### Rows -/

/-- A cell of a column: null, or of the class of the column. The range of a number is not looked at. -/
def ClassOk (f : Field) (x : Cell) : Prop := x = .null ∨ f.layers.head?.map Tag.cls = some x.kind

/-- A row: it has a cell of the right class for every column except for the key. -/
def RowFit (fs : Fields) (pk : String) (c : Cells) : Prop :=
  c pk = none ∧ ∀ k f, fget fs k = some f → k ≠ pk → ∃ x, c k = some x ∧ ClassOk f x

/-- The changes of the schema that the row has not seen are removals of columns that do not exist any more. -/
def Settled (m : Model) (r : RowObj) : Prop :=
  r.schema ≤ m.deltas.length ∧ ∀ d ∈ m.deltas.drop r.schema, ∃ k, d = .rem k ∧ fget m.fields k = none

def RowIn (m : Model) (r : RowObj) : Prop := Settled m r ∧ RowFit m.fields m.pk r.cells

/-- The rows of a table. -/
def RowsIn (t : Tbl) : Prop := ∀ e ∈ t.idx, ∃ r, t.heap[e.2]? = some r ∧ RowIn t.model r

/-! ### What stops an `UPDATE` -/

/-- A division by the integer 0. -/
def ByZero (a : Asn) : Prop := a.op = .div ∧ (a.rhs = .uint 0 ∨ a.rhs = .sint 0)

/-- A `+=` on a list that is null. -/
def OnNull (fs : Fields) (c : Cells) (a : Asn) : Prop :=
  a.op = .add ∧ c a.lhs = some .null ∧ ∃ f ls, fget fs a.lhs = some f ∧ f.layers = .list :: ls

/-- None of the assignments is one of these two. -/
def Calm (fs : Fields) (as : List Asn) (c : Cells) : Prop := ∀ a ∈ as, ¬ ByZero a ∧ ¬ OnNull fs c a

/-! ### One assignment -/

theorem litClass_list (l : Lit) : litClass l ≠ .list := by cases l <;> simp [litClass]

theorem uintOp_fit {t : Tag} {v r : UInt64} {op : AOp} : ((∃ b n, uintOp t v r op = .ok (b, n) ∧ n.kind = .uint) ∨
    (op = .div ∧ r = 0)) := by
  cases op <;> simp only [uintOp]
  case div =>
    by_cases h : r = 0
    · exact .inr ⟨trivial, h⟩
    · rw [if_neg h]; exact .inl ⟨_, _, rfl, rfl⟩
  all_goals exact .inl ⟨_, _, rfl, rfl⟩

theorem sintOp_fit {t : Tag} {v r : Int64} {op : AOp} : ((∃ b n, sintOp t v r op = .ok (b, n) ∧ n.kind = .sint) ∨
    (op = .div ∧ r = 0)) := by
  cases op <;> simp only [sintOp]
  case div =>
    by_cases h : r = 0
    · exact .inr ⟨trivial, h⟩
    · rw [if_neg h]; exact .inl ⟨_, _, rfl, rfl⟩
  all_goals exact .inl ⟨_, _, rfl, rfl⟩

/-- An operation on a cell of the class of the literal gives null or a cell of this class. -/
theorem dcOp_fit {F : FloatOps} {op : AOp} {x : Cell} {l : Lit} (hk : x.kind = litClass l) (hn : x ≠ .null) :
    (∃ b n, dcOp F op x l = .ok (b, n) ∧ (n = .null ∨ n.kind = litClass l)) ∨ ByZero ⟨"", op, l⟩ := by
  cases l with
  | bool b => cases op <;> exact .inl ⟨_, _, rfl, by simp [Cell.kind, litClass]⟩
  | uint r =>
    cases x <;> simp [Cell.kind, litClass] at hk
    rename_i t v
    rcases uintOp_fit (t := t) (v := v) (r := r) (op := op) with ⟨b, n, h1, h2⟩ | ⟨h1, rfl⟩
    · exact .inl ⟨b, n, h1, .inr h2⟩
    · exact .inr ⟨h1, .inl rfl⟩
  | sint r =>
    cases x <;> simp [Cell.kind, litClass] at hk
    rename_i t v
    rcases sintOp_fit (t := t) (v := v) (r := r) (op := op) with ⟨b, n, h1, h2⟩ | ⟨h1, rfl⟩
    · exact .inl ⟨b, n, h1, .inr h2⟩
    · exact .inr ⟨h1, .inr rfl⟩
  | float r =>
    cases x <;> simp [Cell.kind, litClass] at hk
    cases op <;> exact .inl ⟨_, _, rfl, .inr rfl⟩
  | bin r =>
    cases x <;> simp [Cell.kind, litClass] at hk
    cases op <;> exact .inl ⟨_, _, rfl, by simp [Cell.kind, litClass]⟩
  | str r =>
    cases x <;> simp [Cell.kind, litClass] at hk
    cases op <;> exact .inl ⟨_, _, rfl, by simp [Cell.kind, litClass]⟩

theorem dcOp_kind {F : FloatOps} {op : AOp} {x n : Cell} {l : Lit} {b : Bool} (hk : x.kind = litClass l) (hn : x ≠ .null)
    (h : dcOp F op x l = .ok (b, n)) : n = .null ∨ n.kind = litClass l := by
  rcases dcOp_fit (F := F) (op := op) hk hn with ⟨b', n', h1, h2⟩ | ⟨h1, h2⟩
  · rw [h] at h1; cases h1; exact h2
  · simp only at h1 h2
    subst h1
    rcases h2 with rfl | rfl <;> (cases x <;> simp [Cell.kind, litClass] at hk) <;> simp [dcOp, uintOp, sintOp] at h

theorem isNull_ne {x : Cell} (h : x.isNull = false) : x ≠ .null := by rintro rfl; simp [Cell.isNull] at h

theorem classOk_kind {f : Field} {l : Tag} {ls : List Tag} {x : Cell} (hl : f.layers = l :: ls) (h : ClassOk f x) (hn : x ≠ .null) :
    x.kind = l.cls := by
  rcases h with h | h
  · exact absurd h hn
  · rw [hl] at h
    simp only [List.head?_cons, Option.map_some, Option.some.injEq] at h
    exact h.symm

/-- What an assignment puts into the row is of the class of the column; a list stays one. -/
theorem asnStep_fit {F : FloatOps} {f : Field} {x : Cell} {op : AOp} {rhs : Lit} (hx : ClassOk f x) :
    (∀ n, asnStep F f x op rhs = .replace n → ClassOk f n ∧ f.layers.head? ≠ some .list) ∧
    (∀ n, asnStep F f x op rhs = .push n → ClassOk f n ∧ n ≠ .null) := by
  unfold asnStep
  cases hl : f.layers with
  | nil => exact ⟨fun _ h => (by cases h), fun _ h => (by cases h)⟩
  | cons l ls =>
    simp only
    split
    · rename_i hc
      obtain ⟨h1, h2, h3⟩ := hc
      have hk := classOk_kind hl hx (isNull_ne h3)
      constructor
      · intro n hn
        split at hn
        · rename_i b n' hd
          cases hn
          refine ⟨?_, by simp only [List.head?_cons, ne_eq, Option.some.injEq]; rintro rfl; exact h2 rfl⟩
          rcases dcOp_kind (hk.trans h1) (isNull_ne h3) hd with h | h
          · exact .inl h
          · exact .inr (by rw [hl]; simp [h, h1])
        · cases hn
      · intro n hn
        split at hn <;> cases hn
    · split
      · rename_i _ hc
        constructor
        · intro n hn
          cases hn
          refine ⟨.inr (by rw [hl]; simp [kind_cellOfLit, hc.1]), ?_⟩
          simp only [List.head?_cons, ne_eq, Option.some.injEq]
          rintro rfl
          exact litClass_list rhs hc.1.symm
        · intro n hn; cases hn
      · split
        · rename_i _ hc
          constructor
          · intro n hn
            repeat' split at hn
            all_goals cases hn
          · intro n hn
            repeat' split at hn
            all_goals cases hn
            exact ⟨.inr (by rw [hl]; simp [Cell.kind, hc.1]), by simp⟩
        · exact ⟨fun _ h => (by cases h), fun _ h => (by cases h)⟩

/-- Only the two operations stop an assignment. -/
theorem asnStep_calm {F : FloatOps} {f : Field} (hf : LegalType f.layers) {x : Cell} {op : AOp} {rhs : Lit} (hx : ClassOk f x)
    (hz : ¬ ByZero ⟨"", op, rhs⟩) (hn : ¬ (op = .add ∧ x = .null ∧ ∃ ls, f.layers = .list :: ls)) :
    asnStep F f x op rhs ≠ .panic := by
  unfold asnStep
  cases hl : f.layers with
  | nil => obtain ⟨n, t, _, h⟩ := hf; rw [hl] at h; simp at h
  | cons l ls =>
    simp only
    split
    · rename_i hc
      obtain ⟨h1, h2, h3⟩ := hc
      have hk := classOk_kind hl hx (isNull_ne h3)
      rcases dcOp_fit (F := F) (op := op) (hk.trans h1) (isNull_ne h3) with ⟨b, n, h4, _⟩ | h4
      · rw [h4]; simp
      · exact absurd h4 hz
    · split
      · simp
      · split
        · rename_i _ hc
          have hll : l = .list := cls_list.1 hc.1
          subst hll
          have hne : ls ≠ [] := by
            rintro rfl
            rw [hl] at hf
            obtain ⟨n, t, ht, h⟩ := hf
            cases n with
            | zero => simp at h; subst h; simp at ht
            | succ n => cases n <;> simp [List.replicate_succ] at h
          cases ls with
          | nil => exact absurd rfl hne
          | cons e es =>
            simp only
            split
            · have hx' : ∃ vs, x = .list vs := by
                rcases hx with h | h
                · exact absurd ⟨hc.2, h, _, hl⟩ hn
                · rw [hl] at h
                  cases x <;> simp [Cell.kind, Tag.cls] at h
                  exact ⟨_, rfl⟩
              obtain ⟨vs, rfl⟩ := hx'
              simp
            · simp
        · simp

/-! ### The loop -/

theorem RowFit.put {fs : Fields} {pk : String} {c : Cells} (h : RowFit fs pk c) {k : String} {f : Field} {x : Cell}
    (hf : fget fs k = some f) (hk : k ≠ pk) (hx : ClassOk f x) : RowFit fs pk (upd c k (some x)) := by
  refine ⟨by simp [upd, Ne.symm hk, h.1], ?_⟩
  intro j g hg hj
  by_cases e : j = k
  · subst e
    rw [hf] at hg; cases hg
    exact ⟨x, by simp [upd], hx⟩
  · obtain ⟨y, h1, h2⟩ := h.2 j g hg hj
    exact ⟨y, by simp [upd, e, h1], h2⟩

/-- Values that were in the row. -/
def UndoFit (fs : Fields) (pk : String) (rb : List (String × Cell)) : Prop :=
  ∀ e ∈ rb, e.1 ≠ pk ∧ ∀ f, fget fs e.1 = some f → ClassOk f e.2

theorem restore_fit {fs : Fields} {pk : String} : ∀ {rb : List (String × Cell)} {c : Cells}, RowFit fs pk c → UndoFit fs pk rb →
    RowFit fs pk (restore c rb)
  | [], c, h, _ => h
  | (k, x) :: rb, c, h, hr => by
    rw [restore, List.foldl_cons]
    refine restore_fit ?_ (fun e he => hr e (by simp [he]))
    obtain ⟨h1, h2⟩ := hr (k, x) (by simp)
    simp only at h1 h2 ⊢
    unfold cupdate
    split
    · refine ⟨by simp [upd, Ne.symm h1, h.1], ?_⟩
      intro j g hg hj
      by_cases e : j = k
      · subst e; exact ⟨x, by simp [upd], h2 g hg⟩
      · obtain ⟨y, h3, h4⟩ := h.2 j g hg hj
        exact ⟨y, by simp [upd, e, h3], h4⟩
    · exact h

/-- The row in the end of the loop, however it ends. -/
def OutFit (fs : Fields) (pk : String) : UpdOut → Prop
  | .done c => RowFit fs pk c
  | .fail _ c rb => RowFit fs pk c ∧ UndoFit fs pk rb
  | .panic c => RowFit fs pk c

theorem updLoop_fit {F : FloatOps} {fs : Fields} {pk : String} : ∀ {as : List Asn} {c : Cells} {rb : List (String × Cell)},
    RowFit fs pk c → UndoFit fs pk rb → OutFit fs pk (updLoop F fs as c rb)
  | [], c, rb, h, _ => h
  | a :: as, c, rb, h, hr => by
    rw [updLoop]
    split
    · rename_i f x hf hx
      have hk : a.lhs ≠ pk := by intro e; rw [e, h.1] at hx; cases hx
      obtain ⟨y, h1, h2⟩ := h.2 _ f hf hk
      rw [hx] at h1; cases h1
      obtain ⟨g1, g2⟩ := asnStep_fit (F := F) (op := a.op) (rhs := a.rhs) h2
      split
      · rename_i n hn
        refine updLoop_fit (h.put hf hk (g1 n hn).1) ?_
        intro e he
        rcases List.mem_append.1 he with he | he
        · exact hr e he
        · cases List.mem_singleton.1 he
          exact ⟨hk, fun g hg => by rw [hf] at hg; cases hg; exact h2⟩
      · rename_i n hn
        exact updLoop_fit (h.put hf hk (g2 n hn).1) hr
      · exact ⟨h, hr⟩
      · exact h
    · exact ⟨h, hr⟩

theorem byZero_name {a : Asn} (h : ByZero ⟨"", a.op, a.rhs⟩) : ByZero a := h

theorem updLoop_calm {F : FloatOps} {fs : Fields} (hc : FieldsOk fs) {pk : String} : ∀ {as : List Asn} {c : Cells}
    {rb : List (String × Cell)}, RowFit fs pk c → Calm fs as c → ∀ c', updLoop F fs as c rb ≠ .panic c'
  | [], c, rb, _, _, c', e => by cases e
  | a :: as, c, rb, h, hq, c', e => by
    rw [updLoop] at e
    obtain ⟨q1, q2⟩ := hq a (by simp)
    split at e
    · rename_i f x hf hx
      have hk : a.lhs ≠ pk := by intro e; rw [e, h.1] at hx; cases hx
      obtain ⟨y, h1, h2⟩ := h.2 _ f hf hk
      rw [hx] at h1; cases h1
      obtain ⟨g1, g2⟩ := asnStep_fit (F := F) (op := a.op) (rhs := a.rhs) h2
      split at e
      · rename_i n hn
        refine updLoop_calm hc (h.put hf hk (g1 n hn).1) ?_ c' e
        intro b hb
        refine ⟨(hq b (by simp [hb])).1, ?_⟩
        rintro ⟨u1, u2, f', ls, u3, u4⟩
        by_cases hab : b.lhs = a.lhs
        · rw [hab, hf] at u3
          cases u3
          exact (g1 n hn).2 (by rw [u4]; rfl)
        · simp only [upd, hab, if_false] at u2
          exact (hq b (by simp [hb])).2 ⟨u1, u2, f', ls, u3, u4⟩
      · rename_i n hn
        refine updLoop_calm hc (h.put hf hk (g2 n hn).1) ?_ c' e
        intro b hb
        refine ⟨(hq b (by simp [hb])).1, ?_⟩
        rintro ⟨u1, u2, f', ls, u3, u4⟩
        by_cases hab : b.lhs = a.lhs
        · rw [hab] at u2
          simp only [upd, if_true, Option.some.injEq] at u2
          exact (g2 n hn).2 u2
        · simp only [upd, hab, if_false] at u2
          exact (hq b (by simp [hb])).2 ⟨u1, u2, f', ls, u3, u4⟩
      · cases e
      · rename_i hp
        refine asnStep_calm (hc.2 _ (fget_mem hf)) h2 (fun hz => q1 (byZero_name hz)) ?_ hp
        rintro ⟨u1, u2, ls, u3⟩
        exact q2 ⟨u1, by rw [hx, u2], f, ls, hf, u3⟩
    · cases e

/-! ### Changes of the schema -/

theorem fold_rem {fs : Fields} {pk : String} : ∀ {ds : List SDelta} {c : Cells},
    (∀ d ∈ ds, ∃ k, d = .rem k ∧ fget fs k = none) → RowFit fs pk c → RowFit fs pk (ds.foldl applySchema c)
  | [], c, _, h => h
  | d :: ds, c, hd, h => by
    rw [List.foldl_cons]
    refine fold_rem (fun d h => hd d (by simp [h])) ?_
    obtain ⟨k, rfl, hk⟩ := hd d (by simp)
    refine ⟨?_, fun j f hf hj => ?_⟩
    · simp only [applySchema, upd]
      split
      · rfl
      · exact h.1
    · have : j ≠ k := by rintro rfl; rw [hk] at hf; cases hf
      obtain ⟨x, h1, h2⟩ := h.2 j f hf hj
      exact ⟨x, by simp [applySchema, upd, this, h1], h2⟩

theorem RowIn.resolve {m : Model} {r : RowObj} (h : RowIn m r) : RowIn m (resolve m.deltas r) := by
  unfold Dml.resolve
  split
  · exact h
  · rename_i hlt
    split
    · exact h
    · rename_i d ds hd
      rw [← hd]
      refine ⟨⟨by simp, ?_⟩, ?_⟩
      · intro d' hd'
        refine h.1.2 d' ?_
        have : m.deltas.length - 1 = r.schema + (m.deltas.length - 1 - r.schema) := by omega
        simp only at hd'
        rw [this, ← List.drop_drop] at hd'
        exact List.mem_of_mem_drop hd'
      · refine fold_rem (fun d' hd' => h.1.2 d' ?_) h.2
        rw [← List.drop_drop] at hd'
        exact List.mem_of_mem_drop hd'

theorem RowsIn.set {t : Tbl} (h : RowsIn t) (i : Nat) {r : RowObj} (hr : RowIn t.model r) : RowsIn (setRow t i r) := by
  intro e he
  obtain ⟨r', h1, h2⟩ := h e he
  simp only [setRow, List.getElem?_set]
  split
  · rename_i hi
    subst hi
    have hlt := (List.getElem?_eq_some_iff.1 h1).1
    rw [if_pos hlt]
    exact ⟨r, rfl, hr⟩
  · exact ⟨r', h1, h2⟩

theorem RowsIn.congr {t t' : Tbl} (h : RowsIn t) (hm : t'.model = t.model) (hh : t'.heap = t.heap) (hi : ∀ e ∈ t'.idx, e ∈ t.idx) :
    RowsIn t' := by
  intro e he
  rw [hm, hh]
  exact h e (hi e he)

theorem RowsIn.get {t : Tbl} (h : RowsIn t) {k : Key} {i : Nat} {r : RowObj}
    (hr : ((kget t.idx k).bind fun i => (t.heap[i]?).map fun r => (i, r)) = some (i, r)) : RowIn t.model r := by
  simp only [Option.bind_eq_some_iff, Option.map_eq_some_iff, Prod.mk.injEq] at hr
  obtain ⟨j, h1, r', h2, rfl, rfl⟩ := hr
  obtain ⟨r'', h3, h4⟩ := h _ (kget_mem h1)
  simp only at h3
  rw [h2] at h3
  cases h3
  exact h4

/-! ### `SELECT ALL` -/

theorem readAll_fit {fs : Fields} {pk : String} {p : Cell} {c : Cells} (h : RowFit fs pk c) : ∀ {ks : List String},
    (∀ k ∈ ks, fget fs k ≠ none) → readAll pk p c ks ≠ none
  | [], _, e => by cases e
  | k :: ks, hk, e => by
    have ih := readAll_fit (p := p) h (ks := ks) (fun x hx => hk x (by simp [hx]))
    rw [readAll] at e
    split at e
    · rw [Option.map_eq_none_iff] at e; exact ih e
    · rename_i hn
      cases hf : fget fs k with
      | none => exact hk k (by simp) hf
      | some f =>
        obtain ⟨x, h1, _⟩ := h.2 k f hf hn
        rw [h1] at e
        simp only [Option.map_eq_none_iff] at e
        exact ih e

theorem allLoop_fit {ks : List String} : ∀ {es : List (Key × Nat)} {t : Tbl}, RowsIn t → (∀ e ∈ es, e ∈ t.idx) →
    (∀ k ∈ ks, fget t.model.fields k ≠ none) → (allLoop ks es t).2 ≠ none
  | [], t, _, _, _, e => by cases e
  | (k, i) :: es, t, h, he, hk, e => by
    obtain ⟨r, h1, h2⟩ := h (k, i) (he _ (by simp))
    simp only at h1
    rw [allLoop] at e
    simp only [h1] at e
    have h3 := h2.resolve
    cases ha : readAll t.model.pk (keyCellAll t.model.pkTag k) (resolve t.model.deltas r).cells ks with
    | none => exact readAll_fit h3.2 hk ha
    | some cs =>
      have ih := allLoop_fit (ks := ks) (es := es) (h.set i h3) (fun e h => he e (by simp [h])) hk
      simp only [setRow] at ih
      simp only [setRow, ha] at e
      generalize hx : allLoop ks es { t with heap := t.heap.set i (resolve t.model.deltas r) } = x at e ih
      obtain ⟨t', o⟩ := x
      cases o with
      | none => exact ih rfl
      | some rs => simp at e

theorem allLoop_rowsIn {ks : List String} : ∀ {es : List (Key × Nat)} {t : Tbl}, RowsIn t → (∀ e ∈ es, e ∈ t.idx) →
    RowsIn (allLoop ks es t).1
  | [], t, h, _ => h
  | (k, i) :: es, t, h, he => by
    obtain ⟨r, h1, h2⟩ := h (k, i) (he _ (by simp))
    simp only at h1
    rw [allLoop]
    simp only [h1]
    have h3 := h2.resolve
    cases ha : readAll t.model.pk (keyCellAll t.model.pkTag k) (resolve t.model.deltas r).cells ks with
    | none => simp only [setRow, ha]; exact h.set i h3
    | some cs =>
      have ih := allLoop_rowsIn (ks := ks) (es := es) (h.set i h3) (fun e h => he e (by simp [h]))
      simp only [setRow] at ih
      simp only [setRow, ha]
      generalize hx : allLoop ks es { t with heap := t.heap.set i (resolve t.model.deltas r) } = x at ih
      obtain ⟨t', o⟩ := x
      cases o <;> exact ih

/-! ### INSERT -/

theorem fits_class {f : Field} {v : Cell} (h : ValidFor f v) : ClassOk f (retag f.layers v) := by
  rcases h with ⟨rfl, _⟩ | h
  · left
    cases f.layers with
    | nil => rfl
    | cons t ts => cases ts <;> rfl
  · right
    cases hl : f.layers with
    | nil => rw [hl] at h; simp [Fits] at h
    | cons t ts =>
      rw [hl] at h
      cases ts with
      | nil =>
        simp only [Fits] at h
        cases t <;> cases v <;> simp_all [ScalarFits, retag, Cell.kind, Tag.cls]
      | cons u us =>
        cases t <;> cases v <;> simp_all [Fits, retag, Cell.kind, Tag.cls]

theorem prepareInsert_fit {m : Model} (hm : ModelOk m) {d : InsData} (hd : d.Wf) : (∃ e, prepareInsert m d = .err e) ∨
    ∃ k c, prepareInsert m d = .ok (k, c) ∧ RowFit m.fields m.pk c := by
  by_cases h : InsertOk m.fields d
  · obtain ⟨b, c, h1, h2, h3⟩ := prepareCells_spec hm.fields hd
    have hb := h2.2 h
    have hp := h3 hb
    obtain ⟨f, hf, hlay⟩ := hm.pk
    have hval : ∀ k f, fget m.fields k = some f → ∃ v, assoc (pairs m.fields d) k = some v ∧ ValidFor f v := by
      intro k f hf
      cases ha : assoc (pairs m.fields d) k with
      | none =>
        exact absurd ((insertOk_keys hd h k).2 (Gns.fget_isSome.1 (by simp [hf]))) (assoc_none.1 ha)
      | some v =>
        obtain ⟨g, hg, hv⟩ := h.2 _ (assoc_mem ha)
        simp only at hg
        rw [hf] at hg; cases hg
        exact ⟨v, rfl, hv⟩
    obtain ⟨v, hv, hvalid⟩ := hval m.pk f hf
    have hcpk := (hp m.pk).2 v f hv hf
    refine .inr ⟨keyOfCell v, upd c m.pk none, ?_, by simp [upd], ?_⟩
    · rw [prepareInsert, h1]
      simp only [hcpk, hb, if_true, keyOfCell_retag]
    · intro k g hg hk
      obtain ⟨u, hu, hvu⟩ := hval k g hg
      refine ⟨retag g.layers u, ?_, fits_class hvu⟩
      simp only [upd, hk, if_false]
      exact (hp k).2 u g hu hg
  · exact .inl ⟨_, prepareInsert_bad hm hd h⟩

/-! ### Statements -/

/-- What is asked of a statement: an UPDATE does none of the two operations on the row that it meets. -/
def Returns (t : Tbl) : Stmt → Prop
  | .update as w => ∀ k i r, resolveWhere t.model w = some k → kget t.idx k = some i → t.heap[i]? = some r →
      Calm t.model.fields as r.cells
  | _ => True

/-- Every statement keeps the rows in order, even one that is cut short. -/
theorem exec_rowsIn {F : FloatOps} {order : List (Key × Nat) → List (Key × Nat)} {t : Tbl} (ho : ∀ e ∈ order t.idx, e ∈ t.idx)
    (hm : ModelOk t.model) (h : RowsIn t) {st : Stmt} (hw : ∀ d, st = .insert d → d.Wf) : RowsIn (exec F order t st).1 := by
  cases st with
  | insert d =>
    simp only [exec, execInsert]
    rcases prepareInsert_fit hm (hw d rfl) with ⟨e, h1⟩ | ⟨k, c, h1, h2⟩
    · rw [h1]; exact h
    · rw [h1]
      simp only
      split
      · exact h.congr rfl rfl (fun _ h => h)
      · intro e he
        simp only [List.mem_append, List.mem_singleton] at he
        rcases he with he | rfl
        · obtain ⟨r, h3, h4⟩ := h e he
          have hlt := (List.getElem?_eq_some_iff.1 h3).1
          exact ⟨r, by simp only [List.getElem?_append_left hlt]; exact h3, h4⟩
        · exact ⟨⟨k, c, t.model.deltas.length, t.ver⟩, by simp, ⟨Nat.le_refl _, by simp⟩, h2⟩
  | update as w =>
    simp only [exec, execUpdate]
    split
    · exact h
    · split
      · exact h
      · rename_i i r hr
        have hrow := h.get hr
        have ho := updLoop_fit (F := F) (as := as) hrow.2 (rb := []) (by simp [UndoFit])
        split
        · rename_i c hc
          rw [hc] at ho
          exact (h.set i (r := { r with cells := c, revised := t.ver + 1 - 1 }) ⟨hrow.1, ho⟩).congr rfl rfl (fun _ h => h)
        · rename_i e c rb hc
          rw [hc] at ho
          exact (h.set i (r := { r with cells := restore c rb }) ⟨hrow.1, restore_fit ho.1 ho.2⟩).congr rfl rfl (fun _ h => h)
        · rename_i c hc
          rw [hc] at ho
          exact (h.set i (r := { r with cells := c }) ⟨hrow.1, ho⟩).congr rfl rfl (fun _ h => h)
  | delete w =>
    simp only [exec, execDelete]
    split
    · exact h.congr rfl rfl (fun _ h => h)
    · split
      · exact h.congr rfl rfl (fun _ h => h)
      · exact h.congr rfl rfl (fun _ h => (kdel_sublist _ _).subset h)
  | select fs w =>
    simp only [exec, execSelect]
    split
    · exact h
    · split
      · exact h
      · rename_i i r hr
        exact h.set i (h.get hr).resolve
  | selectAll fs n =>
    simp only [exec, execSelectAll]
    split
    · exact h
    · have := allLoop_rowsIn (ks := fs.getD (colNames t.model.fields)) (es := (order t.idx).take n) h
        (fun e he => ho e (List.mem_of_mem_take he))
      split <;> (rename_i hx; rw [hx] at this; exact this)

/-- A statement on rows in order returns. -/
theorem exec_returns {F : FloatOps} {order : List (Key × Nat) → List (Key × Nat)} {t : Tbl} (ho : ∀ e ∈ order t.idx, e ∈ t.idx)
    (hm : ModelOk t.model) (h : RowsIn t) {st : Stmt} (hw : ∀ d, st = .insert d → d.Wf) (hr : Returns t st) :
    (exec F order t st).2 ≠ .panic := by
  cases st with
  | insert d =>
    simp only [exec, execInsert]
    rcases prepareInsert_fit hm (hw d rfl) with ⟨e, h1⟩ | ⟨k, c, h1, h2⟩
    · rw [h1]; simp
    · rw [h1]
      simp only
      split <;> simp
  | update as w =>
    simp only [exec, execUpdate]
    split
    · simp
    · rename_i k hk
      split
      · simp
      · rename_i i r hx
        have hrow := h.get hx
        have hq : Calm t.model.fields as r.cells := by
          simp only [Option.bind_eq_some_iff, Option.map_eq_some_iff, Prod.mk.injEq] at hx
          obtain ⟨j, h1, r', h2, rfl, rfl⟩ := hx
          exact hr k _ _ hk h1 h2
        have hn := updLoop_calm (F := F) hm.fields hrow.2 (rb := []) hq
        split
        · simp
        · simp
        · rename_i c hc
          exact absurd hc (hn c)
  | delete w =>
    simp only [exec, execDelete]
    repeat' split
    all_goals simp
  | select fs w =>
    simp only [exec, execSelect]
    split
    · simp
    · split
      · simp
      · simp only
        split <;> simp
  | selectAll fs n =>
    simp only [exec, execSelectAll]
    split
    · simp
    · rename_i hbad
      have hks : ∀ x ∈ fs.getD (colNames t.model.fields), fget t.model.fields x ≠ none := by
        cases fs with
        | none =>
          intro x hx hn
          exact fget_none.1 hn hx
        | some ks =>
          simp only [Option.isSome_some, Option.getD_some, Bool.true_and, Bool.or_eq_true, decide_eq_true_eq,
            List.any_eq_true, Option.isNone_iff_eq_none, not_or, not_exists, not_and] at hbad
          exact fun x hx => hbad.2 x hx
      have := allLoop_fit (es := (order t.idx).take n) h (fun e he => ho e (List.mem_of_mem_take he)) hks
      split
      · simp
      · rename_i hx; rw [hx] at this; exact absurd rfl this

/-! ### `ALTER MODEL` -/

theorem ldeltasLoop_head : ∀ {ls : List LayerSpec} {cur r : List Tag} {nl nl' d d' : Bool},
    ldeltasLoop ls cur nl d = .ok (r, nl', d') → r.head?.map Tag.cls = cur.head?.map Tag.cls
  | [], cur, r, nl, nl', d, d', h => by rw [ldeltasLoop] at h; cases h; rfl
  | _ :: _, [], r, nl, nl', d, d', h => by rw [ldeltasLoop] at h; cases h; rfl
  | l :: ls, t :: ts, r, nl, nl', d, d', h => by
    rw [ldeltasLoop] at h
    split at h
    · cases h
    · split at h
      · rename_i htn
        subst htn
        split at h
        · obtain ⟨⟨r', a, b⟩, _, h2⟩ := Res.bind_eq_ok h
          cases h2
          rfl
        · cases h
      · split at h
        · rename_i hi
          split at h
          · obtain ⟨⟨r', a, b⟩, _, h2⟩ := Res.bind_eq_ok h
            cases h2
            simp only [interop, Bool.and_eq_true, decide_eq_true_eq] at hi
            simp [hi.1]
          · cases h
        · cases h

/-- The two declarations have the same class. -/
def SameClass (f g : Field) : Prop := g.layers.head?.map Tag.cls = f.layers.head?.map Tag.cls

theorem ldeltas_class {cur f : Field} {ls : List LayerSpec} {n nl d : Bool} (h : ldeltas cur ls n = .ok (f, nl, d)) :
    SameClass cur f := by
  rw [ldeltas] at h
  split at h
  · cases h
  · obtain ⟨⟨r', a, b⟩, h1, h2⟩ := Res.bind_eq_ok h
    cases h2
    exact ldeltasLoop_head h1

theorem planUpdate_class (m : Model) : ∀ {es : List Expanded} {fs fs' : Fields}
    {okay okay' nl nl' d d' : Bool}, planUpdate m es fs okay nl d = .ok (fs', okay', nl', d') →
    (∀ e ∈ fs, ∃ cur, fget m.fields e.1 = some cur ∧ SameClass cur e.2) →
    ∀ e ∈ fs', ∃ cur, fget m.fields e.1 = some cur ∧ SameClass cur e.2
  | [], fs, fs', okay, okay', nl, nl', d, d', h, h1 => by rw [planUpdate] at h; cases h; exact h1
  | e :: es, fs, fs', okay, okay', nl, nl', d, d', h, h1 => by
    rw [planUpdate] at h
    cases okay with
    | false => simp at h; obtain ⟨rfl, _⟩ := h; exact h1
    | true =>
      rw [if_pos rfl] at h
      split at h
      · cases h
      · split at h
        · cases h
        · rename_i cur hcur
          obtain ⟨⟨ps, nu⟩, h3, h4⟩ := Res.bind_eq_ok h
          simp only at h4
          obtain ⟨⟨f, a, b⟩, h5, h6⟩ := Res.bind_eq_ok h4
          simp only at h6
          generalize hi : Gns.finsert fs e.name f = x at h6
          obtain ⟨fs1, ins⟩ := x
          simp only at h6
          refine planUpdate_class m h6 ?_
          intro y hy
          unfold Gns.finsert at hi
          split at hi
          · cases hi; exact h1 y hy
          · cases hi
            rcases List.mem_append.1 hy with hy | hy
            · exact h1 y hy
            · cases List.mem_singleton.1 hy
              exact ⟨cur, hcur, ldeltas_class h5⟩

/-- What has to hold for the rows when the model is altered: columns are only added if there are none. -/
def AlterFine (t : Tbl) : AlterKind → Prop
  | .add _ => t.idx = []
  | _ => True

theorem removeFields_get : ∀ {ns : List String} {m m' : Model}, (names m.fields).Nodup → removeFields m ns = some m' →
    m'.deltas = m.deltas ++ ns.map .rem ∧ m'.pk = m.pk ∧ (∀ k ∈ ns, fget m'.fields k = none) ∧
      (names m'.fields).Nodup ∧ ∀ k f, fget m'.fields k = some f → fget m.fields k = some f
  | [], m, m', hn, h => by
    rw [removeFields] at h; cases h
    exact ⟨by simp, rfl, fun _ h => (by cases h), hn, fun _ _ h => h⟩
  | n :: ns, m, m', hn, h => by
    rw [removeFields] at h
    split at h
    · rename_i m1 b h1
      unfold Gns.Model.removeField Gns.fdelete at h1
      split at h1
      · rename_i fs hx
        split at hx
        · cases hx
          cases h1
          have hn1 : (names (Gns.ferase m.fields n)).Nodup := by rw [Gns.names_ferase]; exact hn.erase n
          obtain ⟨i1, i2, i3, i4, i5⟩ := removeFields_get (m := { m with
            fields := Gns.ferase m.fields n, deltas := m.deltas ++ [.rem n] }) hn1 h
          refine ⟨by rw [i1]; simp, i2, ?_, i4, ?_⟩
          · intro k hk
            rcases List.mem_cons.1 hk with rfl | hk
            · cases hg : fget m'.fields k with
              | none => rfl
              | some f =>
                have := i5 k f hg
                simp only [Gns.fget_ferase _ hn] at this
                simp at this
            · exact i3 k hk
          · intro k f hk
            have := i5 k f hk
            simp only [Gns.fget_ferase _ hn] at this
            split at this
            · cases this
            · exact this
        · cases hx
      · cases h1
    · cases h

/-- `ALTER MODEL` keeps the rows in order. -/
theorem RowsIn.alter {perm : Fields → Fields} (hperm : ∀ l, (perm l).Perm l) {t : Tbl} (hm : ModelOk t.model) (h : RowsIn t)
    (k : AlterKind) (hk : AlterFine t k) : RowsIn { t with model := alterModel perm t.model k } := by
  rw [alterModel]
  split
  · rename_i fs hp
    cases k with
    | add es =>
      intro e he
      simp only [AlterFine] at hk
      simp only [hk] at he
      cases he
    | update es =>
      rw [plan] at hp
      obtain ⟨⟨fs', o, nl, d⟩, h1, h2⟩ := Res.bind_eq_ok hp
      cases o with
      | false => simp at h2
      | true =>
        simp only [if_true, Res.ok.injEq, Prod.mk.injEq] at h2
        obtain ⟨h2, _⟩ := h2
        split at h2 <;> cases h2
    | remove ns =>
      rw [plan] at hp
      split at hp
      · obtain ⟨a, _, h2⟩ := Res.bind_eq_ok hp
        simp only [Res.ok.injEq, Prod.mk.injEq] at h2
        obtain ⟨h2, _⟩ := h2
        split at h2 <;> cases h2
      · cases hp
  · rename_i fs hp
    obtain ⟨p1, p2⟩ := Gns.plan_update hperm hm.fields hp
    have hw : ∀ e ∈ fs, ∃ cur, fget t.model.fields e.1 = some cur ∧ SameClass cur e.2 := by
      cases k with
      | update es =>
        rw [plan] at hp
        obtain ⟨⟨fs', o, nl, d⟩, h1, h2⟩ := Res.bind_eq_ok hp
        cases o with
        | false => simp at h2
        | true =>
          simp only [if_true, Res.ok.injEq, Prod.mk.injEq] at h2
          obtain ⟨h2, rfl⟩ := h2
          split at h2
          · cases h2
            have := planUpdate_class t.model h1 (by simp)
            exact fun e he => this e ((hperm fs').mem_iff.1 he)
          · cases h2
      | add es =>
        rw [plan] at hp
        obtain ⟨⟨fs', o⟩, h1, h2⟩ := Res.bind_eq_ok hp
        repeat' split at h2
        all_goals cases h2
      | remove ns =>
        rw [plan] at hp
        split at hp
        · obtain ⟨a, _, h2⟩ := Res.bind_eq_ok hp
          simp only [Res.ok.injEq, Prod.mk.injEq] at h2
          obtain ⟨h2, _⟩ := h2
          split at h2 <;> cases h2
        · cases hp
    obtain ⟨d1, d2, _⟩ := updateFields_deltas fs t.model
    have hg := updateFields_fget hm p1.2 p1.1 p2
    intro e he
    obtain ⟨r, h1, h2⟩ := h e he
    refine ⟨r, h1, ⟨by simp only [d1]; exact h2.1.1, ?_⟩, ?_⟩
    · simp only [d1]
      intro d hd
      obtain ⟨j, rfl, hj⟩ := h2.1.2 d hd
      refine ⟨j, rfl, ?_⟩
      rw [hg]
      cases hf : fget fs j with
      | none => exact hj
      | some g => exact absurd (p2 j (Gns.fget_isSome.1 (by simp [hf]))).1 (fget_none.1 hj)
    · simp only [d2]
      refine ⟨h2.2.1, fun j f hf hj => ?_⟩
      rw [hg] at hf
      cases hx : fget fs j with
      | none =>
        rw [hx] at hf
        exact h2.2.2 j f hf hj
      | some g =>
        rw [hx] at hf
        cases hf
        obtain ⟨cur, c1, c2⟩ := hw _ (fget_mem hx)
        obtain ⟨x, x1, x2⟩ := h2.2.2 j cur c1 hj
        refine ⟨x, x1, ?_⟩
        rcases x2 with x2 | x2
        · exact .inl x2
        · exact .inr (c2.trans x2)
  · rename_i ns hp
    obtain ⟨p1, p2⟩ := Gns.plan_remove hp
    cases hr : removeFields t.model ns with
    | none => exact h
    | some m' =>
      obtain ⟨i1, i2, i3, _, i5⟩ := removeFields_get hm.fields.1 hr
      intro e he
      obtain ⟨r, h1, h2⟩ := h e he
      simp only [Option.getD_some]
      refine ⟨r, h1, ⟨by rw [i1]; have := h2.1.1; simp; omega, ?_⟩, ?_⟩
      · intro d hd
        rw [i1, List.drop_append_of_le_length h2.1.1] at hd
        rcases List.mem_append.1 hd with hd | hd
        · obtain ⟨j, rfl, hj⟩ := h2.1.2 d hd
          refine ⟨j, rfl, ?_⟩
          cases hg : fget m'.fields j with
          | none => rfl
          | some f => rw [i5 j f hg] at hj; cases hj
        · obtain ⟨j, hj, rfl⟩ := List.mem_map.1 hd
          exact ⟨j, rfl, i3 j hj⟩
      · rw [i2]
        exact ⟨h2.2.1, fun j f hf hj => h2.2.2 j f (i5 j f hf) hj⟩
  · exact h

end Verif.Dml
