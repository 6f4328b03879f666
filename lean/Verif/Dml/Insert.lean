import Verif.Dml.Update
/-!
INSERT prepares exactly the row that was given (used for C31).
-/
namespace Verif.Dml
open Verif.Gns (SDelta Model upd fget ModelOk FieldsOk PkNonNull names fget_mem fget_of_mem fget_none)
open Verif.Enc (Fields)
open Verif.Lex (Lit)

/-! ### Values -/

theorem norm_retag (ts : List Tag) (v : Cell) : norm (retag ts v) = norm v := by
  induction ts generalizing v with
  | nil => cases v <;> simp [retag]
  | cons t ts ih =>
    cases v with
    | list vs =>
      simp only [retag, norm, normList_eq_map, List.map_map]
      congr 1
      apply List.map_congr_left
      intro a _
      exact ih a
    | _ => cases ts <;> simp [retag, norm]

theorem fits_retag (ts : List Tag) (v : Cell) : Fits ts (retag ts v) ↔ Fits ts v := by
  rw [← fits_norm ts (retag ts v), norm_retag, fits_norm]

theorem retag_null (ts : List Tag) : retag ts .null = .null := by
  cases ts with
  | nil => rfl
  | cons t ts => cases ts <;> rfl

theorem vtData_spec {f : Field} (hl : LegalType f.layers) {d : Cell} (hd : d.noNullInside = true) :
    ∃ b d', f.vtData d = .ok (b, d') ∧ (b = true ↔ ValidFor f d) ∧ (b = true → d' = retag f.layers d) := by
  obtain ⟨b, d', h1, h2, h3⟩ := C30_insert_accepts_exactly_the_type f.layers hl f.nullable d hd
  exact ⟨b, d', h1, by rw [h2, ValidFor, isNull_iff], h3⟩

theorem ValidFor.cellOk {f : Field} {v : Cell} (h : ValidFor f v) : CellOk f.layers (retag f.layers v) := by
  rcases h with ⟨rfl, _⟩ | h
  · exact .inl (retag_null _)
  · exact .inr ((fits_retag _ _).2 h)

/-! ### Lists of values -/

theorem assoc_none {ps : List (String × Cell)} {k : String} : assoc ps k = none ↔ k ∉ ps.map (·.1) := by
  induction ps with
  | nil => simp [assoc]
  | cons p ps ih =>
    obtain ⟨x, v⟩ := p
    simp only [assoc, List.map_cons, List.mem_cons]
    by_cases h : x = k
    · simp [h]
    · have h' : ¬ k = x := fun e => h e.symm
      simp [h, h', ih]

theorem assoc_mem {ps : List (String × Cell)} {k : String} {v : Cell} (h : assoc ps k = some v) : (k, v) ∈ ps := by
  induction ps with
  | nil => simp [assoc] at h
  | cons p ps ih =>
    obtain ⟨x, u⟩ := p
    rw [assoc] at h
    split at h
    · rename_i e; subst e; cases h; simp
    · exact List.mem_cons_of_mem _ (ih h)

/-- The cells after the values `ps` were stored. -/
def Prepared (cols : Fields) (c0 : Cells) (ps : List (String × Cell)) (c : Cells) : Prop :=
  ∀ k, (assoc ps k = none → c k = c0 k) ∧
    (∀ v f, assoc ps k = some v → fget cols k = some f → c k = some (retag f.layers v))

theorem cput_new {c : Cells} {k : String} {d : Cell} (h : c k = none) : cput c k d = (upd c k (some d), true) := by
  simp [cput, h]

/-- Storing one value, then the others. -/
theorem Prepared.cons {cols : Fields} {c0 c : Cells} {ps : List (String × Cell)} {k : String} {v : Cell} {f : Field}
    (hf : fget cols k = some f) (hk : k ∉ ps.map (·.1))
    (h : Prepared cols (upd c0 k (some (retag f.layers v))) ps c) : Prepared cols c0 ((k, v) :: ps) c := by
  intro j
  obtain ⟨h1, h2⟩ := h j
  constructor
  · intro hj
    rw [assoc] at hj
    split at hj
    · cases hj
    · rename_i e
      rw [h1 hj]
      have e' : ¬ j = k := fun h => e h.symm
      simp [upd, e']
  · intro u g hu hg
    rw [assoc] at hu
    split at hu
    · rename_i e
      subst e
      cases hu
      rw [hf] at hg; cases hg
      rw [h1 (assoc_none.2 hk)]
      simp [upd]
    · exact h2 u g hu hg

theorem zip_keys {fs : Fields} {ds : List Cell} (h : fs.length = ds.length) :
    ((fs.map (·.1)).zip ds).map (·.1) = names fs := by
  induction fs generalizing ds with
  | nil => cases ds <;> rfl
  | cons e es ih =>
    cases ds with
    | nil => simp at h
    | cons d ds => simp only [List.map_cons, List.zip_cons_cons]; rw [ih (by simpa using h)]; rfl

theorem ordLoop_false (fs : Fields) (ds : List Cell) (c : Cells) : ordLoop fs ds false c = .ok (false, c) := by
  rw [ordLoop.eq_def]
  cases ds <;> simp

theorem ordLoop_spec (cols : Fields) (hc : FieldsOk cols) : ∀ (fs : Fields) (ds : List Cell) (c : Cells),
    fs.length = ds.length → (∀ e ∈ fs, e ∈ cols) → (names fs).Nodup → (∀ d ∈ ds, d.noNullInside = true) →
    (∀ k ∈ names fs, c k = none) →
    ∃ b c', ordLoop fs ds true c = .ok (b, c') ∧
      (b = true ↔ ∀ kv ∈ (fs.map (·.1)).zip ds, ∃ f, fget cols kv.1 = some f ∧ ValidFor f kv.2) ∧
      (b = true → Prepared cols c ((fs.map (·.1)).zip ds) c')
  | [], [], c, _, _, _, _, _ => ⟨true, c, rfl, by simp, fun _ k => ⟨fun _ => rfl, fun _ _ h => by cases h⟩⟩
  | (k, f) :: fs, d :: ds, c, hlen, hmem, hnd, hnn, hnone => by
    have hf : fget cols k = some f := fget_of_mem hc.1 (hmem (k, f) (by simp))
    obtain ⟨b, d', h1, h2, h3⟩ := vtData_spec (hc.2 (k, f) (hmem _ (by simp))) (hnn d (by simp))
    have hck : c k = none := hnone k (by simp)
    rw [Gns.names_cons, List.nodup_cons] at hnd
    have hz : ordLoop ((k, f) :: fs) (d :: ds) true c = ordLoop fs ds b (upd c k (some d')) := by
      rw [ordLoop]
      simp [h1, cput_new hck]
    rw [hz]
    have hvalid : (∀ kv ∈ ((k, f) :: fs).map (·.1) |>.zip (d :: ds), ∃ f, fget cols kv.1 = some f ∧ ValidFor f kv.2) ↔
        ValidFor f d ∧ ∀ kv ∈ (fs.map (·.1)).zip ds, ∃ f, fget cols kv.1 = some f ∧ ValidFor f kv.2 := by
      simp only [List.map_cons, List.zip_cons_cons, List.mem_cons, forall_eq_or_imp]
      refine and_congr ?_ Iff.rfl
      rw [hf]
      simp
    rw [hvalid]
    cases hb : b with
    | false =>
      refine ⟨false, upd c k (some d'), ?_, ?_, by simp⟩
      · exact ordLoop_false _ _ _
      · rw [← h2, hb]; simp
    | true =>
      have hd := h3 hb
      subst hd
      obtain ⟨b', c', i1, i2, i3⟩ := ordLoop_spec cols hc fs ds (upd c k (some (retag f.layers d))) (by simpa using hlen)
        (fun e he => hmem e (by simp [he])) hnd.2 (fun d hd => hnn d (by simp [hd])) (by
          intro j hj
          simp only [upd]
          split
          · rename_i e; subst e; exact absurd hj hnd.1
          · exact hnone j (by simp [hj]))
      refine ⟨b', c', i1, ?_, fun hb' => ?_⟩
      · rw [i2, ← h2, hb]; simp
      · simp only [List.map_cons, List.zip_cons_cons]
        refine Prepared.cons hf ?_ (i3 hb')
        rw [zip_keys (by simpa using hlen)]
        exact hnd.1
  | [], _ :: _, _, h, _, _, _, _ => by simp at h
  | _ :: _, [], _, h, _, _, _, _ => by simp at h

theorem mapLoop_spec (cols : Fields) (hc : FieldsOk cols) : ∀ (ds : List (String × Cell)) (n : Nat) (c : Cells),
    (ds.map (·.1)).Nodup → (∀ d ∈ ds, d.2.noNullInside = true) → (∀ k ∈ ds.map (·.1), c k = none) →
    ∃ n' b c', mapLoop cols ds n true c = .ok (n', b, c') ∧
      (b = true ↔ ∀ kv ∈ ds, ∃ f, fget cols kv.1 = some f ∧ ValidFor f kv.2) ∧
      (b = true → n' = n + ds.length ∧ Prepared cols c ds c')
  | [], n, c, _, _, _ => ⟨n, true, c, rfl, by simp, fun _ => ⟨rfl, fun k => ⟨fun _ => rfl, fun _ _ h => by cases h⟩⟩⟩
  | (k, d) :: ds, n, c, hnd, hnn, hnone => by
    rw [List.map_cons, List.nodup_cons] at hnd
    cases hf : fget cols k with
    | none =>
      refine ⟨n, false, c, by simp [mapLoop, hf], ?_, by simp⟩
      simp [hf]
    | some f =>
      obtain ⟨b, d', h1, h2, h3⟩ := vtData_spec (hc.2 (k, f) (fget_mem hf)) (hnn (k, d) (by simp))
      have hck : c k = none := hnone k (by simp)
      have hz : mapLoop cols ((k, d) :: ds) n true c = mapLoop cols ds (n + 1) b (upd c k (some d')) := by
        rw [mapLoop]
        simp [hf, h1, cput_new hck]
      rw [hz]
      have hvalid : (∀ kv ∈ (k, d) :: ds, ∃ f, fget cols kv.1 = some f ∧ ValidFor f kv.2) ↔
          ValidFor f d ∧ ∀ kv ∈ ds, ∃ f, fget cols kv.1 = some f ∧ ValidFor f kv.2 := by
        simp only [List.mem_cons, forall_eq_or_imp]
        refine and_congr ?_ Iff.rfl
        rw [hf]
        simp
      rw [hvalid]
      cases hb : b with
      | false =>
        refine ⟨n + 1, false, upd c k (some d'), ?_, ?_, by simp⟩
        · cases ds <;> rfl
        · rw [← h2, hb]; simp
      | true =>
        have hd := h3 hb
        subst hd
        obtain ⟨n', b', c', i1, i2, i3⟩ := mapLoop_spec cols hc ds (n + 1) (upd c k (some (retag f.layers d))) hnd.2
          (fun d hd => hnn d (by simp [hd])) (by
            intro j hj
            simp only [upd]
            split
            · rename_i e; subst e; exact absurd hj hnd.1
            · exact hnone j (List.mem_cons_of_mem _ hj))
        refine ⟨n', b', c', i1, ?_, fun hb' => ⟨?_, ?_⟩⟩
        · rw [i2, ← h2, hb]; simp
        · rw [(i3 hb').1]; simp; omega
        · exact Prepared.cons hf hnd.1 (i3 hb').2

/-! ### The whole INSERT -/

/-- What the parser delivers: names are distinct, and no null inside a list. -/
def InsData.Wf : InsData → Prop
  | .ordered ds => ∀ d ∈ ds, d.noNullInside = true
  | .map ds => (ds.map (·.1)).Nodup ∧ ∀ d ∈ ds, d.2.noNullInside = true

theorem prepareCells_spec {cols : Fields} (hc : FieldsOk cols) {d : InsData} (hd : d.Wf) :
    ∃ b c, prepareCells cols d = .ok (b, c) ∧ (b = true ↔ InsertOk cols d) ∧
      (b = true → Prepared cols (fun _ => none) (pairs cols d) c) := by
  by_cases hn : cols.length = d.count
  · cases d with
    | ordered ds =>
      obtain ⟨b, c, h1, h2, h3⟩ := ordLoop_spec cols hc cols ds (fun _ => none) hn (fun _ h => h) hc.1 hd (by simp)
      refine ⟨b, c, ?_, ?_, h3⟩
      · simpa [prepareCells, hn] using h1
      · rw [h2, InsertOk]; simp [hn, pairs]
    | map ds =>
      obtain ⟨n, b, c, h1, h2, h3⟩ := mapLoop_spec cols hc ds 0 (fun _ => none) hd.1 hd.2 (by simp)
      have hn' : cols.length = ds.length := hn
      refine ⟨b && decide (n = cols.length), c, ?_, ?_, ?_⟩
      · simp only [prepareCells, hn, decide_true]
        rw [h1]; rfl
      · cases hb : b with
        | false =>
          have : ¬ InsertOk cols (.map ds) := by
            rintro ⟨_, h⟩
            rw [h2.2 h] at hb; cases hb
          simp [this]
        | true =>
          have := (h3 hb).1
          have hi : InsertOk cols (.map ds) := ⟨hn.symm, h2.1 hb⟩
          simp only [hi, iff_true, Bool.true_and, decide_eq_true_eq]
          omega
      · intro hb
        simp only [Bool.and_eq_true] at hb
        exact (h3 hb.1).2
  · refine ⟨false, fun _ => none, ?_, ?_, by simp⟩
    · cases d with
      | ordered ds =>
        simp only [prepareCells, hn, decide_false]
        exact ordLoop_false _ _ _
      | map ds =>
        simp only [prepareCells, hn, decide_false]
        cases ds <;> rfl
    · simp only [InsertOk, Bool.false_eq_true, false_iff, not_and]
      intro h; exact absurd h.symm hn

theorem subset_of_length {l m : List String} (hn : l.Nodup) (hs : ∀ x ∈ l, x ∈ m) (hl : m.length ≤ l.length) :
    ∀ x ∈ m, x ∈ l := by
  induction l generalizing m with
  | nil =>
    have : m = [] := List.length_eq_zero_iff.1 (by simpa using hl)
    simp [this]
  | cons a l ih =>
    rw [List.nodup_cons] at hn
    have ha : a ∈ m := hs a (by simp)
    have := ih (m := m.erase a) hn.2 (by
      intro x hx
      have hne : x ≠ a := by rintro rfl; exact hn.1 hx
      exact (List.mem_erase_of_ne hne).2 (hs x (by simp [hx]))) (by
      rw [List.length_erase_of_mem ha]; simp at hl; omega)
    intro x hx
    by_cases h : x = a
    · simp [h]
    · exact List.mem_cons_of_mem _ (this x ((List.mem_erase_of_ne h).2 hx))

/-- An INSERT that is admissible gives a value for every column, and only for columns. -/
theorem insertOk_keys {cols : Fields} {d : InsData} (hd : d.Wf) (h : InsertOk cols d) (k : String) :
    k ∈ (pairs cols d).map (·.1) ↔ k ∈ names cols := by
  cases d with
  | ordered ds =>
    rw [pairs, zip_keys h.1.symm]
  | map ds =>
    have hs : ∀ x ∈ ds.map (·.1), x ∈ names cols := by
      intro x hx
      obtain ⟨kv, hkv, rfl⟩ := List.mem_map.1 hx
      obtain ⟨f, hf, _⟩ := h.2 kv hkv
      exact Gns.fget_isSome.1 (by simp [hf])
    refine ⟨hs k, subset_of_length hd.1 hs ?_ k⟩
    have := h.1
    simp only [InsData.count] at this
    simp [names, this]

theorem keyOfCell_uniq {t : Tag} {v : Cell} (h : ScalarFits t v) (hu : t.uniq ≠ .illegal) :
    (keyOfCell v).uniq = t.uniq := by
  cases t <;> cases v <;> simp_all [ScalarFits, keyOfCell, Key.uniq, Tag.uniq]

theorem keyOfCell_retag (ts : List Tag) (v : Cell) : keyOfCell (retag ts v) = keyOfCell v := by
  cases ts with
  | nil => cases v <;> rfl
  | cons t ts => cases ts <;> cases v <;> simp [retag, keyOfCell]

theorem prepareInsert_bad {m : Model} (hm : ModelOk m) {d : InsData} (hd : d.Wf) (h : ¬ InsertOk m.fields d) :
    prepareInsert m d = .err .validation := by
  obtain ⟨b, c, h1, h2, _⟩ := prepareCells_spec hm.fields hd
  have hb : b = false := by cases b <;> simp_all
  rw [prepareInsert, h1]
  simp only [hb]
  split <;> rfl

/-- An admissible INSERT: its key has the type of the primary key, and the rest is the row. -/
theorem prepareInsert_ok {m : Model} (hm : ModelOk m) (hpk : PkNonNull m) {d : InsData} (hd : d.Wf)
    (h : InsertOk m.fields d) : ∃ v c, assoc (pairs m.fields d) m.pk = some v ∧
      prepareInsert m d = .ok (keyOfCell v, c) ∧ (keyOfCell v).uniq = m.pkTag.uniq ∧
      normCells c = rowOf m.fields m.pk d ∧ RowOk m.fields m.pk c := by
  obtain ⟨b, c, h1, h2, h3⟩ := prepareCells_spec hm.fields hd
  have hb := h2.2 h
  have hp := h3 hb
  obtain ⟨f, hf, hlay⟩ := hm.pk
  have hval : ∀ k f, fget m.fields k = some f → ∃ v, assoc (pairs m.fields d) k = some v ∧ ValidFor f v := by
    intro k f hf
    cases ha : assoc (pairs m.fields d) k with
    | none =>
      exact absurd ((insertOk_keys hd h k).2 (Gns.fget_isSome.1 (by simp [hf]))) (assoc_none.1 ha)
    | some v =>
      obtain ⟨g, hg, hv⟩ := h.2 _ (assoc_mem ha)
      simp only at hg
      rw [hf] at hg; cases hg
      exact ⟨v, rfl, hv⟩
  obtain ⟨v, hv, hvalid⟩ := hval m.pk f hf
  have hcpk := (hp m.pk).2 v f hv hf
  refine ⟨v, upd c m.pk none, hv, ?_, ?_, ?_, ?_⟩
  · rw [prepareInsert, h1]
    simp only [hcpk, hb, if_true, keyOfCell_retag]
  · rcases hvalid with ⟨_, hn⟩ | hfit
    · rw [hpk f hf] at hn; cases hn
    · rw [hlay] at hfit
      exact keyOfCell_uniq (by simpa [Fits] using hfit) hm.uniq
  · funext k
    simp only [normCells, rowOf, upd]
    split
    · rfl
    · cases ha : assoc (pairs m.fields d) k with
      | none => rw [(hp k).1 ha]
      | some u =>
        obtain ⟨g, hg, _⟩ := h.2 _ (assoc_mem ha)
        rw [(hp k).2 u g ha hg]
        simp [norm_retag]
  · intro k
    constructor
    · intro g hg hk
      obtain ⟨u, hu, hvu⟩ := hval k g hg
      refine ⟨retag g.layers u, ?_, hvu.cellOk⟩
      simp only [upd, hk, if_false]
      exact (hp k).2 u g hu hg
    · intro hk
      simp only [upd]
      split
      · rfl
      · rename_i hne
        rcases hk with hk | hk
        · refine (hp k).1 (assoc_none.2 fun hmem => ?_)
          exact absurd ((insertOk_keys hd h k).1 hmem) (fget_none.1 hk)
        · exact absurd hk hne

end Verif.Dml
