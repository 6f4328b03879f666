import Verif.Dml.Spec
import Verif.Gns.CatLemmas
/-!
C32: UPDATE keeps values in range and is all-or-nothing.
-/
namespace Verif.Dml
open Verif.Gns (SDelta Model upd fget ModelOk FieldsOk PkNonNull)
open Verif.Enc (Fields)
open Verif.Lex (Lit)

/-! ### Values -/

theorem normList_eq_map (vs : List Cell) : normList vs = vs.map norm := by
  induction vs with
  | nil => rfl
  | cons v vs ih => rw [normList, ih, List.map_cons]

@[simp] theorem norm_cellOfLit (l : Lit) : norm (cellOfLit l) = cellOfLit l := by cases l <;> simp [norm, cellOfLit]

theorem scalarFits_norm (t : Tag) (x : Cell) : ScalarFits t (norm x) ↔ ScalarFits t x := by
  cases x <;> simp only [norm] <;> cases t <;> simp [ScalarFits]

theorem fits_norm (ts : List Tag) (x : Cell) : Fits ts (norm x) ↔ Fits ts x := by
  induction ts generalizing x with
  | nil => simp [Fits]
  | cons t ts ih =>
    cases ts with
    | nil => simp only [Fits]; exact scalarFits_norm t x
    | cons t' ts =>
      cases x with
      | list vs =>
        cases t <;> simp only [norm, Fits]
        rw [normList_eq_map]
        simp only [List.mem_map, forall_exists_index, and_imp, forall_apply_eq_imp_iff₂]
        exact ⟨fun h v hv => (ih v).1 (h v hv), fun h v hv => (ih v).2 (h v hv)⟩
      | _ => cases t <;> simp [norm, Fits]

theorem kind_cellOfLit (l : Lit) : (cellOfLit l).kind = litClass l := by cases l <;> rfl

theorem litClass_ne_list (l : Lit) : litClass l ≠ .list := by cases l <;> simp [litClass]

theorem fits_cons_list {ts : List Tag} (h : ts ≠ []) {x : Cell} (hf : Fits (.list :: ts) x) :
    ∃ vs, x = .list vs ∧ ∀ v ∈ vs, Fits ts v := by
  cases ts with
  | nil => exact absurd rfl h
  | cons t ts => cases x <;> simp_all [Fits]

/-- Cells of a column: null or of the type. -/
def CellOk (layers : List Tag) (x : Cell) : Prop := x = .null ∨ Fits layers x

theorem cellOk_norm {ts : List Tag} {x : Cell} : CellOk ts (norm x) ↔ CellOk ts x := by
  constructor
  · rintro (h | h)
    · cases x <;> simp_all [norm, CellOk]
    · exact .inr ((fits_norm _ _).1 h)
  · rintro (rfl | h)
    · exact .inl rfl
    · exact .inr ((fits_norm _ _).2 h)

/-- A literal that fits a type: the type is not a list. -/
theorem fits_lit {ts : List Tag} (hl : LegalType ts) {l : Lit} (h : Fits ts (cellOfLit l)) :
    ∃ t, ts = [t] ∧ ScalarFits t (cellOfLit l) ∧ t.cls = litClass l ∧ t ≠ .list := by
  obtain ⟨n, t, ht, rfl⟩ := hl
  cases n with
  | zero =>
    simp only [List.replicate_zero, List.nil_append] at h ⊢
    have h' : ScalarFits t (cellOfLit l) := by simpa [Fits] using h
    exact ⟨t, rfl, h', by rw [← kind_cellOfLit]; exact (scalarFits_kind h').1, ht⟩
  | succ n =>
    rw [List.replicate_succ, List.cons_append] at h
    obtain ⟨vs, hv, -⟩ := fits_cons_list (by simp) h
    cases l <;> cases hv

theorem eval_fits {F : FloatOps} {ts : List Tag} (hl : LegalType ts) {x y : Cell} {op : AOp} {l : Lit}
    (hx : CellOk ts x) (h : Eval F ts x op l y) : Fits ts y ∧ norm y = y ∨ (∃ vs, x = .list vs ∧ Fits ts y) := by
  cases h with
  | set h => exact .inl ⟨h, norm_cellOfLit l⟩
  | uint ht _ hf => subst ht; exact .inl ⟨by simpa [Fits] using hf, by simp [norm]⟩
  | sint ht _ hf => subst ht; exact .inl ⟨by simpa [Fits] using hf, by simp [norm]⟩
  | float ht hf => subst ht; exact .inl ⟨by simpa [Fits] using hf, by simp [norm]⟩
  | bin ht => subst ht; exact .inl ⟨by simp [Fits, ScalarFits], by simp [norm]⟩
  | str ht => subst ht; exact .inl ⟨by simp [Fits, ScalarFits], by simp [norm]⟩
  | @list ls vs l ht h =>
    subst ht
    refine .inr ⟨vs, rfl, ?_⟩
    rcases hx with hx | hx
    · cases hx
    · have hne : ls ≠ [] := by rintro rfl; simp [Fits] at h
      obtain ⟨ws, e, hw⟩ := fits_cons_list hne hx
      cases e
      cases ls with
      | nil => exact absurd rfl hne
      | cons t ts =>
        simp only [Fits]
        intro v hv
        rcases List.mem_append.1 hv with hv | hv
        · exact hw v hv
        · simp only [List.mem_singleton] at hv
          subst hv; exact h

theorem Eval.ok {F : FloatOps} {ts : List Tag} (hl : LegalType ts) {x y : Cell} {op : AOp} {l : Lit}
    (hx : CellOk ts x) (h : Eval F ts x op l y) : Fits ts y := by
  rcases eval_fits hl hx h with h | ⟨_, _, h⟩
  · exact h.1
  · exact h

/-! ### One assignment -/

/-- The literal is not of the class of the column (or, for `+=` on a list, of its elements), or the value is
null and the assignment is not `=`. -/
def Refused (layers : List Tag) (x : Cell) (op : AOp) (l : Lit) : Prop :=
  match layers with
  | [t] => t.cls ≠ litClass l ∨ (x = .null ∧ op ≠ .assign)
  | _ :: e :: _ => op ≠ .add ∨ e.cls ≠ litClass l
  | [] => False

theorem isNull_iff {x : Cell} : x.isNull = true ↔ x = .null := by cases x <;> simp [Cell.isNull]

theorem legal_cons {l : Tag} {ls : List Tag} (h : LegalType (l :: ls)) :
    (ls = [] ∧ l ≠ .list) ∨ (l = .list ∧ ls ≠ [] ∧ LegalType ls) := by
  obtain ⟨n, t, ht, e⟩ := h
  cases n with
  | zero => simp at e; exact .inl ⟨e.2, by rw [e.1]; exact ht⟩
  | succ n =>
    rw [List.replicate_succ, List.cons_append] at e
    injection e with e1 e2
    exact .inr ⟨e1, by rw [e2]; simp, ⟨n, t, ht, e2⟩⟩

theorem cls_list {t : Tag} : t.cls = .list ↔ t = .list := by cases t <;> simp [Tag.cls]

/-- The code refuses an assignment exactly if the classes do not match. Neither ranges nor operators play a
role. -/
theorem asnStep_fail {F : FloatOps} {f : Field} (hl : LegalType f.layers) {x : Cell} {op : AOp} {l : Lit} :
    asnStep F f x op l = .fail ↔ Refused f.layers x op l := by
  unfold asnStep
  cases hf : f.layers with
  | nil => rw [hf] at hl; obtain ⟨n, t, _, e⟩ := hl; simp at e
  | cons t ts =>
    rw [hf] at hl
    rcases legal_cons hl with ⟨rfl, ht⟩ | ⟨rfl, hne, _⟩
    · have hc : t.cls ≠ .list := fun h => ht (cls_list.1 h)
      simp only [Refused]
      by_cases h1 : t.cls = litClass l
      · by_cases h2 : x.isNull = true
        · rw [if_neg (by simp [h2])]
          by_cases h3 : op = .assign
          · rw [if_pos ⟨h1, h2, h3⟩]; simp [h1, h3]
          · rw [if_neg (by simp [h3]), if_neg (by simp [hc])]
            simp [h1, isNull_iff.1 h2, h3]
        · rw [if_pos ⟨h1, hc, by simpa using h2⟩]
          have hx : x ≠ .null := fun h => h2 (isNull_iff.2 h)
          constructor
          · intro h; split at h <;> cases h
          · rintro (h | h)
            · exact absurd h1 h
            · exact absurd h.1 hx
      · rw [if_neg (by simp [h1]), if_neg (by simp [h1]), if_neg (by simp [hc])]
        simp [h1]
    · cases ts with
      | nil => exact absurd rfl hne
      | cons e es =>
        have hll : Tag.list.cls ≠ litClass l := fun h => litClass_ne_list l h.symm
        simp only [Refused]
        rw [if_neg (by simp [hll]), if_neg (by simp [hll])]
        by_cases h3 : op = .add
        · rw [if_pos ⟨rfl, h3⟩]
          by_cases h4 : e.cls = litClass l
          · simp only [h4, if_true]
            constructor
            · intro h; split at h <;> cases h
            · simp [h3]
          · simp only [h4, if_false]; simp [h3, h4]
        · rw [if_neg (by simp [h3])]; simp [h3]

theorem uintOp_spec {t : Tag} {v r w : UInt64} {op : AOp} (h : intOp op v.toNat r.toNat = some (w.toNat : Int)) :
    ∃ b, uintOp t v r op = .ok (b, .uint t w) := by
  have hw := w.toNat_lt
  have hv := v.toNat_lt
  have hr := r.toNat_lt
  cases op with
  | assign =>
    simp only [intOp, Option.some.injEq] at h
    have : r = w := UInt64.toNat_inj.1 (by omega)
    subst this; exact ⟨_, rfl⟩
  | add =>
    simp only [intOp, Option.some.injEq] at h
    have : v + r = w := UInt64.toNat_inj.1 (by rw [UInt64.toNat_add]; omega)
    rw [← this]; exact ⟨_, rfl⟩
  | sub =>
    simp only [intOp, Option.some.injEq] at h
    have : v - r = w := UInt64.toNat_inj.1 (by rw [UInt64.toNat_sub]; omega)
    rw [← this]; exact ⟨_, rfl⟩
  | mul =>
    simp only [intOp, Option.some.injEq] at h
    have h' : v.toNat * r.toNat = w.toNat := by exact_mod_cast h
    have : v * r = w := UInt64.toNat_inj.1 (by rw [UInt64.toNat_mul, h', Nat.mod_eq_of_lt (by omega)])
    rw [← this]; exact ⟨_, rfl⟩
  | div =>
    simp only [intOp] at h
    split at h
    · cases h
    · rename_i h0
      simp only [Option.some.injEq] at h
      have hr0 : r ≠ 0 := by rintro rfl; exact h0 rfl
      have h' : v.toNat / r.toNat = w.toNat := by
        rw [Int.tdiv_eq_ediv_of_nonneg (by omega)] at h
        exact_mod_cast h
      have : v / r = w := UInt64.toNat_inj.1 (by rw [UInt64.toNat_div, h'])
      rw [← this, uintOp, if_neg hr0]; exact ⟨_, rfl⟩

theorem sintOp_spec {t : Tag} {v r w : Int64} {op : AOp} (h : intOp op v.toInt r.toInt = some w.toInt) :
    ∃ b, sintOp t v r op = .ok (b, .sint t w) := by
  have hw := w.toInt_lt
  have hw' := w.le_toInt
  have bm : ∀ z : Int, z = w.toInt → z.bmod (2 ^ 64) = w.toInt := by
    intro z hz
    rw [hz]
    exact Int.bmod_eq_of_le (by omega) (by omega)
  cases op with
  | assign =>
    simp only [intOp, Option.some.injEq] at h
    have : r = w := Int64.toInt_inj.1 h
    subst this; exact ⟨_, rfl⟩
  | add =>
    simp only [intOp, Option.some.injEq] at h
    have : v + r = w := Int64.toInt_inj.1 (by rw [Int64.toInt_add]; exact bm _ h)
    rw [← this]; exact ⟨_, rfl⟩
  | sub =>
    simp only [intOp, Option.some.injEq] at h
    have : v - r = w := Int64.toInt_inj.1 (by rw [Int64.toInt_sub]; exact bm _ h)
    rw [← this]; exact ⟨_, rfl⟩
  | mul =>
    simp only [intOp, Option.some.injEq] at h
    have : v * r = w := Int64.toInt_inj.1 (by rw [Int64.toInt_mul]; exact bm _ h)
    rw [← this]; exact ⟨_, rfl⟩
  | div =>
    simp only [intOp] at h
    split at h
    · cases h
    · rename_i h0
      simp only [Option.some.injEq] at h
      have hr0 : r ≠ 0 := by rintro rfl; exact h0 rfl
      have : v / r = w := Int64.toInt_inj.1 (by rw [Int64.toInt_div]; exact bm _ h)
      rw [← this, sintOp, if_neg hr0]; exact ⟨_, rfl⟩

/-- A new value, whether it is stored in place or not. -/
def StepRes.new? : StepRes → Option Cell
  | .replace y => some y
  | .push y => some y
  | _ => none

/-- An assignment that is possible is carried out; only lists are changed in place. -/
theorem asnStep_eval {F : FloatOps} {f : Field} (hl : LegalType f.layers) {x y : Cell} {op : AOp} {l : Lit}
    (hx : CellOk f.layers x) (h : Eval F f.layers (norm x) op l y) :
    ∃ z, (asnStep F f x op l = .replace z ∨ (asnStep F f x op l = .push z ∧ f.layers.head? = some .list)) ∧
      norm z = y := by
  have scalar : ∀ {t : Tag}, f.layers = [t] → t.cls = litClass l → t ≠ .list → x ≠ .null →
      ∀ b z, dcOp F op x l = .ok (b, z) → asnStep F f x op l = .replace z := by
    intro t hf hc ht hn b z hd
    unfold asnStep
    rw [hf]
    simp only
    rw [if_pos ⟨hc, fun e => ht (cls_list.1 e), by cases hh : x.isNull <;> simp_all [isNull_iff]⟩, hd]
  generalize hnx : norm x = n at h
  cases h with
  | set h =>
    obtain ⟨t, hf, hs, hc, ht⟩ := fits_lit hl h
    rcases hx with rfl | hx
    · refine ⟨cellOfLit l, .inl ?_, norm_cellOfLit l⟩
      unfold asnStep
      rw [hf]
      simp only
      rw [if_neg (by simp [Cell.isNull]), if_pos (by simp [hc, Cell.isNull])]
    · rw [hf] at hx
      have hx' : ScalarFits t x := by simpa [Fits] using hx
      have hk := (scalarFits_kind hx').1
      have hn : x ≠ .null := by rintro rfl; cases t <;> simp [ScalarFits] at hx'
      have key : ∃ b z, dcOp F .assign x l = .ok (b, z) ∧ norm z = cellOfLit l := by
        rw [hc] at hk
        cases l <;> cases x <;> first
          | exact ⟨_, _, rfl, by simp [norm, cellOfLit]⟩
          | exact absurd hk (by simp [Cell.kind, litClass])
      obtain ⟨b, z, h1, h2⟩ := key
      exact ⟨z, .inl (scalar hf hc ht hn b z h1), h2⟩
  | @uint t v r w op hf hi hs =>
    cases x <;> simp only [norm, reduceCtorEq] at hnx
    injection hnx with _ hv
    subst hv
    rename_i t' v _
    have hk := scalarFits_kind hs
    obtain ⟨b, hb⟩ := uintOp_spec (t := t') hi
    exact ⟨_, .inl (scalar hf hk.1 hk.2 (by simp) b _ hb), by simp [norm]⟩
  | @sint t v r w op hf hi hs =>
    cases x <;> simp only [norm, reduceCtorEq] at hnx
    injection hnx with _ hv
    subst hv
    rename_i t' v _
    have hk := scalarFits_kind hs
    obtain ⟨b, hb⟩ := sintOp_spec (t := t') hi
    exact ⟨_, .inl (scalar hf hk.1 hk.2 (by simp) b _ hb), by simp [norm]⟩
  | @float t v r op hf hs =>
    cases x <;> simp only [norm, reduceCtorEq] at hnx
    injection hnx with _ hv
    subst hv
    rename_i t' v _
    have hk := scalarFits_kind hs
    refine ⟨.float t' (fltOp F op v r), .inl (scalar hf hk.1 hk.2 (by simp) (floatOp F t' v r op).1 _ ?_), by simp [norm]⟩
    cases op <;> rfl
  | @bin a b hf =>
    cases x <;> simp only [norm, reduceCtorEq] at hnx
    injection hnx with hv
    subst hv
    exact ⟨_, .inl (scalar hf rfl (by simp) (by simp) true _ rfl), by simp [norm]⟩
  | @str a b hf =>
    cases x <;> simp only [norm, reduceCtorEq] at hnx
    injection hnx with hv
    subst hv
    exact ⟨_, .inl (scalar hf rfl (by simp) (by simp) true _ rfl), by simp [norm]⟩
  | @list ls vs l hf hs =>
    cases x <;> simp only [norm, reduceCtorEq] at hnx
    injection hnx with hv
    subst hv
    rename_i ws
    have hne : ls ≠ [] := by rintro rfl; simp [Fits] at hs
    rw [hf] at hl
    rcases legal_cons hl with ⟨h, _⟩ | ⟨_, _, hl'⟩
    · exact absurd h hne
    obtain ⟨t, rfl, _, hc, ht⟩ := fits_lit hl' hs
    refine ⟨.list (ws ++ [cellOfLit l]), .inr ⟨?_, by rw [hf]; rfl⟩, by simp [norm, normList_eq_map]⟩
    unfold asnStep
    rw [hf]
    have hll : Tag.list.cls ≠ litClass l := fun h => litClass_ne_list l h.symm
    simp only
    rw [if_neg (by simp [Tag.cls]), if_neg (by simp [hll]), if_pos (by simp [Tag.cls])]
    simp only [hc, if_true]

/-! ### A whole UPDATE -/

/-- The cells of a row are those of the columns, without the primary key. -/
def RowOk (cols : Fields) (pk : String) (c : Cells) : Prop :=
  ∀ k, (∀ f, fget cols k = some f → k ≠ pk → ∃ x, c k = some x ∧ CellOk f.layers x) ∧
    (fget cols k = none ∨ k = pk → c k = none)

/-- The specification gives a result for every UPDATE. -/
theorem specUpd_total (F : FloatOps) (cols : Fields) (pk : String) : ∀ (as : List Asn) (c : Cells),
    (∀ k f, fget cols k = some f → k ≠ pk → (c k).isSome) → ∃ r, SpecUpd F cols pk as c r
  | [], c, _ => ⟨_, .done⟩
  | a :: as, c, h => by
    cases hf : fget cols a.lhs with
    | none => exact ⟨_, .unknown (.inl hf)⟩
    | some f =>
      by_cases hk : a.lhs = pk
      · exact ⟨_, .unknown (.inr hk)⟩
      · obtain ⟨x, hx⟩ := Option.isSome_iff_exists.1 (h a.lhs f hf hk)
        by_cases he : ∃ y, Eval F f.layers x a.op a.rhs y
        · obtain ⟨y, hy⟩ := he
          obtain ⟨r, hr⟩ := specUpd_total F cols pk as (upd c a.lhs (some y)) (by
            intro k f hf hk
            simp only [upd]
            split
            · rfl
            · exact h k f hf hk)
          exact ⟨r, .step hf hk hx hy hr⟩
        · exact ⟨_, .bad hf hk hx (fun y hy => he ⟨y, hy⟩)⟩

/-- The situations in which the code does what it should: each assignment is either possible, or refused
because of its class. What is excluded are the impossible assignments with matching classes: a number out of
range, division by zero, an operator that the type does not have, appending to a null list. -/
def Plain (F : FloatOps) (cols : Fields) : List Asn → Cells → Prop
  | [], _ => True
  | a :: as, c => ∀ f x, fget cols a.lhs = some f → c a.lhs = some x →
    ((∃ y, Eval F f.layers x a.op a.rhs y) ∨ Refused f.layers x a.op a.rhs) ∧
    ∀ y, Eval F f.layers x a.op a.rhs y → Plain F cols as (upd c a.lhs (some y))

/-- The assignments that the code can undo: no list is appended to, no column occurs twice. -/
def Undoable (cols : Fields) (as : List Asn) : Prop :=
  (as.map (·.lhs)).Nodup ∧ ∀ a ∈ as, ∀ f, fget cols a.lhs = some f → f.layers.head? ≠ some .list

theorem normCells_upd (c : Cells) (k : String) (x : Cell) :
    normCells (upd c k (some x)) = upd (normCells c) k (some (norm x)) := by
  funext j
  simp only [normCells, upd]
  split <;> rfl

theorem RowOk.upd {cols : Fields} {pk : String} {c : Cells} (h : RowOk cols pk c) {k : String} {f : Field} {x : Cell}
    (hf : fget cols k = some f) (hk : k ≠ pk) (hx : CellOk f.layers x) : RowOk cols pk (Gns.upd c k (some x)) := by
  intro j
  simp only [Gns.upd]
  by_cases hj : j = k
  · subst hj
    simp only [if_true]
    refine ⟨fun g hg _ => ⟨x, rfl, ?_⟩, ?_⟩
    · rw [hf] at hg; cases hg; exact hx
    · rintro (h | h)
      · rw [hf] at h; cases h
      · exact absurd h hk
  · simp only [hj, if_false]
    exact h j

/-- What `rollback_data` holds. -/
structure Undo (c0 c : Cells) (rb : List (String × Cell)) : Prop where
  nodup : (rb.map (·.1)).Nodup
  old : ∀ e ∈ rb, c0 e.1 = some e.2 ∧ (c e.1).isSome
  same : ∀ k, k ∉ rb.map (·.1) → c k = c0 k

theorem restore_undo {c0 : Cells} : ∀ {rb : List (String × Cell)} {c : Cells}, Undo c0 c rb → restore c rb = c0
  | [], c, h => by funext k; exact h.same k (by simp)
  | (k, x) :: rb, c, h => by
    show restore (cupdate c k x) rb = c0
    obtain ⟨h1, h2⟩ := h.old (k, x) (by simp)
    have hd := h.nodup
    rw [List.map_cons, List.nodup_cons] at hd
    have hc : cupdate c k x = upd c k (some x) := by
      unfold cupdate
      obtain ⟨y, hy⟩ := Option.isSome_iff_exists.1 h2
      simp only at hy
      rw [hy]
    rw [hc]
    refine restore_undo ⟨hd.2, ?_, ?_⟩
    · intro e he
      refine ⟨(h.old e (by simp [he])).1, ?_⟩
      simp only [upd]
      split
      · rfl
      · exact (h.old e (by simp [he])).2
    · intro j hj
      simp only [upd]
      split
      · rename_i e; subst e; exact h1.symm
      · rename_i e
        refine h.same j ?_
        simp only [List.map_cons, List.mem_cons, not_or]
        exact ⟨e, hj⟩

theorem updLoop_spec {F : FloatOps} {cols : Fields} {pk : String}
    (hcols : ∀ k f, fget cols k = some f → LegalType f.layers) {as : List Asn} {n : Cells}
    {r : Except DErr Cells} (h : SpecUpd F cols pk as n r) : ∀ {c : Cells} {rb : List (String × Cell)},
    n = normCells c → RowOk cols pk c → Plain F cols as n →
    (∀ c', r = .ok c' → ∃ d, updLoop F cols as c rb = .done d ∧ normCells d = c' ∧ RowOk cols pk d) ∧
    (∀ e, r = .error e → ∃ d rb', updLoop F cols as c rb = .fail e d rb' ∧
      ∀ c0, Undoable cols as → Undo c0 c rb → (∀ a ∈ as, a.lhs ∉ rb.map (·.1)) → Undo c0 d rb') := by
  induction h with
  | done =>
    intro c rb hn hr hp
    refine ⟨fun c' hc => ?_, fun e he => by cases he⟩
    cases hc
    exact ⟨c, rfl, hn.symm, hr⟩
  | @step a as n f x y r hf hk hx he hr ih =>
    intro c rb hn hrow hp
    subst hn
    obtain ⟨z, hz⟩ : ∃ z, c a.lhs = some z := by
      simp only [normCells] at hx
      cases hc : c a.lhs with
      | none => rw [hc] at hx; cases hx
      | some z => exact ⟨z, rfl⟩
    have hzx : norm z = x := by simp only [normCells, hz, Option.map_some] at hx; exact Option.some.inj hx
    obtain ⟨z', hz', hok⟩ := (hrow a.lhs).1 f hf hk
    rw [hz] at hz'; cases hz'
    subst hzx
    obtain ⟨w, hstep, hw⟩ := asnStep_eval (hcols _ _ hf) hok he
    have hwok : CellOk f.layers w := cellOk_norm.1 (.inr (hw ▸ Eval.ok (hcols _ _ hf) (cellOk_norm.2 hok) he))
    have hplain := (hp f (norm z) hf hx).2 y he
    have hnorm : upd (normCells c) a.lhs (some y) = normCells (upd c a.lhs (some w)) := by
      rw [normCells_upd, hw]
    rcases hstep with hs | ⟨hs, hlist⟩
    · obtain ⟨i1, i2⟩ := ih (c := upd c a.lhs (some w)) (rb := rb ++ [(a.lhs, z)]) hnorm
        (RowOk.upd hrow hf hk hwok) hplain
      have hl : updLoop F cols (a :: as) c rb = updLoop F cols as (upd c a.lhs (some w)) (rb ++ [(a.lhs, z)]) := by
        rw [updLoop]; simp only [hf, hz, hs]
      rw [hl]
      refine ⟨i1, fun e hee => ?_⟩
      obtain ⟨d, rb', j1, j2⟩ := i2 e hee
      refine ⟨d, rb', j1, fun c0 hu hud hnot => ?_⟩
      have hu1 := hu.1
      rw [List.map_cons, List.nodup_cons] at hu1
      have ha : a.lhs ∉ rb.map (·.1) := hnot a (by simp)
      refine j2 c0 ⟨hu1.2, fun b hb => hu.2 b (by simp [hb])⟩ ⟨?_, ?_, ?_⟩ ?_
      · rw [List.map_append, List.nodup_append]
        refine ⟨hud.nodup, by simp, ?_⟩
        intro u hu v hv
        simp only [List.map_cons, List.map_nil, List.mem_singleton] at hv
        subst hv
        intro e; subst e; exact ha hu
      · intro e he
        rcases List.mem_append.1 he with he | he
        · refine ⟨(hud.old e he).1, ?_⟩
          simp only [upd]
          split
          · rfl
          · exact (hud.old e he).2
        · simp only [List.mem_singleton] at he
          subst he
          exact ⟨by rw [← hud.same _ ha]; exact hz, by simp [upd]⟩
      · intro k hk
        simp only [List.map_append, List.map_cons, List.map_nil, List.mem_append, List.mem_singleton, not_or] at hk
        simp only [upd, hk.2, if_false]
        exact hud.same k hk.1
      · intro b hb
        simp only [List.map_append, List.map_cons, List.map_nil, List.mem_append, List.mem_singleton, not_or]
        refine ⟨hnot b (by simp [hb]), fun e => hu1.1 ?_⟩
        rw [← e]; exact List.mem_map_of_mem hb
    · obtain ⟨i1, i2⟩ := ih (c := upd c a.lhs (some w)) (rb := rb) hnorm
        (RowOk.upd hrow hf hk hwok) hplain
      have hl : updLoop F cols (a :: as) c rb = updLoop F cols as (upd c a.lhs (some w)) rb := by
        rw [updLoop]; simp only [hf, hz, hs]
      rw [hl]
      refine ⟨i1, fun e hee => ?_⟩
      obtain ⟨d, rb', j1, j2⟩ := i2 e hee
      exact ⟨d, rb', j1, fun c0 hu _ _ => absurd hlist (hu.2 a (by simp) f hf)⟩
  | @bad a as n f x hf hk hx he =>
    intro c rb hn hrow hp
    subst hn
    obtain ⟨z, hz, hok⟩ := (hrow a.lhs).1 f hf hk
    have hzx : norm z = x := by simp only [normCells, hz, Option.map_some] at hx; exact Option.some.inj hx
    subst hzx
    have hs : asnStep F f z a.op a.rhs = .fail := by
      rw [asnStep_fail (hcols _ _ hf)]
      rcases (hp f (norm z) hf hx).1 with ⟨y, hy⟩ | hr
      · exact absurd hy (he y)
      · have : norm z = .null ↔ z = .null := by cases z <;> simp [norm]
        unfold Refused at hr ⊢
        split at hr <;> simp_all
    refine ⟨fun c' hc => (by cases hc), fun e hee => ?_⟩
    cases hee
    refine ⟨c, rb, ?_, fun c0 _ hu _ => hu⟩
    rw [updLoop]; simp only [hf, hz, hs]
  | @unknown a as n h =>
    intro c rb hn hrow hp
    have hz := (hrow a.lhs).2 h
    refine ⟨fun c' hc => (by cases hc), fun e hee => ?_⟩
    cases hee
    refine ⟨c, rb, ?_, fun c0 _ hu _ => hu⟩
    rw [updLoop]
    simp only [hz]
    split
    · rename_i h2; cases h2
    · rfl

end Verif.Dml
