import Verif.Dml.SchemaTheorems
import Verif.Dml.TableTheorems
/-!
C34: an accepted `ALTER MODEL UPDATE` keeps the values valid.
-/
namespace Verif.Dml
open Verif.Gns (SDelta Model upd fget ModelOk FieldsOk PkNonNull names fget_mem fget_of_mem fget_none AlterKind plan
  addFields updateFields removeFields planUpdate ldeltas ldeltasLoop Expanded Action interop)
open Verif.Enc (Fields)
open Verif.Lex (Lit)

/-- Every value of the first declaration is a value of the second. -/
def Widens (f g : Field) : Prop := ∀ v, ValidFor f v → ValidFor g v

theorem scalarFits_widen {t n : Tag} (h : interop t n = true) (hv : t.value ≤ n.value) {v : Cell} (hf : ScalarFits t v) :
    ScalarFits n v := by
  have hmax : F64.f32Max.mag < 0x7FF0000000000000 := by decide +kernel
  cases t <;> cases n <;> first
    | exact absurd h (by decide)
    | exact absurd hv (by decide)
    | (cases v <;> simp only [ScalarFits] at hf ⊢ <;> omega)

theorem ldeltasLoop_widen : ∀ {ls : List LayerSpec} {cur r : List Tag} {nl d d' : Bool},
    ldeltasLoop ls cur nl d = .ok (r, true, d') → LegalType cur → nl = true ∧ ∀ v, Fits cur v → Fits r v
  | [], cur, r, nl, d, d', h, _ => by rw [ldeltasLoop] at h; cases h; exact ⟨rfl, fun _ h => h⟩
  | _ :: _, [], r, nl, d, d', h, _ => by rw [ldeltasLoop] at h; cases h; exact ⟨rfl, fun _ h => h⟩
  | l :: ls, t :: ts, r, nl, d, d', h, hc => by
    rw [ldeltasLoop] at h
    split at h
    · cases h
    · rename_i n hn
      split at h
      · rename_i htn
        subst htn
        split at h
        · obtain ⟨⟨r', a, b⟩, h1, h2⟩ := Res.bind_eq_ok h
          cases h2
          rcases Gns.legal_cons hc with ⟨rfl, ht⟩ | ⟨rfl, ht⟩
          · cases ls <;> (rw [ldeltasLoop] at h1; cases h1; exact ⟨rfl, fun _ h => h⟩)
          · obtain ⟨i1, i2⟩ := ldeltasLoop_widen h1 ht
            refine ⟨i1, fun v hv => ?_⟩
            obtain ⟨vs, rfl, hvs⟩ := fits_cons_list (by rintro rfl; obtain ⟨n, t, _, h⟩ := ht; simp at h) hv
            cases r' with
            | nil =>
              obtain ⟨n, t, _, h⟩ := Gns.ldeltasLoop_legal h1 ht
              simp at h
            | cons x xs => exact fun v hv => i2 v (hvs v hv)
        · cases h
      · split at h
        · rename_i hi
          obtain ⟨i1, i2⟩ := Gns.interop_list hi
          split at h
          · obtain ⟨⟨r', a, b⟩, h1, h2⟩ := Res.bind_eq_ok h
            cases h2
            rcases Gns.legal_cons hc with ⟨rfl, ht⟩ | ⟨rfl, ht⟩
            · have : r' = [] ∧ (nl && decide (t.value ≤ n.value)) = true := by
                cases ls <;>
                  (rw [ldeltasLoop] at h1; simp only [Res.ok.injEq, Prod.mk.injEq] at h1; exact ⟨h1.1.symm, h1.2.1⟩)
              obtain ⟨rfl, hb⟩ := this
              simp only [Bool.and_eq_true, decide_eq_true_eq] at hb
              exact ⟨hb.1, fun v hv => scalarFits_widen hi hb.2 hv⟩
            · exact absurd rfl i1
          · cases h
        · cases h

theorem ldeltas_widens {cur f : Field} {ls : List LayerSpec} {n d : Bool} (h : ldeltas cur ls n = .ok (f, true, d))
    (hc : LegalType cur.layers) : Widens cur f := by
  rw [ldeltas] at h
  split at h
  · cases h
  · obtain ⟨⟨r', a, b⟩, h1, h2⟩ := Res.bind_eq_ok h
    cases h2
    obtain ⟨i1, i2⟩ := ldeltasLoop_widen h1 hc
    rintro v (⟨rfl, hv⟩ | hv)
    · refine .inl ⟨rfl, ?_⟩
      rw [hv] at i1
      simpa using i1
    · exact .inr (i2 v hv)

theorem planUpdate_widens (m : Model) (hm : FieldsOk m.fields) : ∀ {es : List Expanded} {fs fs' : Fields}
    {okay nl d d' : Bool}, planUpdate m es fs okay nl d = .ok (fs', true, true, d') → 
    (∀ e ∈ fs, ∃ cur, fget m.fields e.1 = some cur ∧ (nl = true → Widens cur e.2)) →
    nl = true ∧ ∀ e ∈ fs', ∃ cur, fget m.fields e.1 = some cur ∧ Widens cur e.2
  | [], fs, fs', okay, nl, d, d', h, h1 => by
    rw [planUpdate] at h; cases h
    exact ⟨rfl, fun e he => by obtain ⟨c, h2, h3⟩ := h1 e he; exact ⟨c, h2, h3 rfl⟩⟩
  | e :: es, fs, fs', okay, nl, d, d', h, h1 => by
    rw [planUpdate] at h
    cases okay with
    | false => simp at h
    | true =>
      rw [if_pos rfl] at h
      split at h
      · cases h
      · split at h
        · cases h
        · rename_i cur hcur
          obtain ⟨⟨ps, nu⟩, h3, h4⟩ := Res.bind_eq_ok h
          simp only at h4
          obtain ⟨⟨f, a, b⟩, h5, h6⟩ := Res.bind_eq_ok h4
          simp only at h6
          generalize hi : Gns.finsert fs e.name f = x at h6
          obtain ⟨fs1, ins⟩ := x
          simp only at h6
          have ho : (ps.isEmpty && ins) = true := by
            cases hx : (ps.isEmpty && ins) with
            | true => rfl
            | false => rw [hx] at h6; cases es <;> simp [planUpdate] at h6
          rw [ho] at h6
          simp only [Bool.and_eq_true] at ho
          obtain ⟨_, rfl⟩ := ho
          obtain ⟨_, rfl⟩ := Gns.finsert_ok hi
          obtain ⟨j1, j2⟩ := planUpdate_widens m hm h6 (by
            intro x hx
            rcases List.mem_append.1 hx with hx | hx
            · obtain ⟨c, k1, k2⟩ := h1 x hx
              exact ⟨c, k1, fun hb => k2 (by simp only [Bool.and_eq_true] at hb; exact hb.1)⟩
            · simp only [List.mem_singleton] at hx
              subst hx
              refine ⟨cur, hcur, fun hb => ?_⟩
              simp only [Bool.and_eq_true] at hb
              obtain ⟨_, rfl⟩ := hb
              exact ldeltas_widens h5 (hm.2 _ (fget_mem hcur)))
          simp only [Bool.and_eq_true] at j1
          exact ⟨j1.1, j2⟩

theorem updateFields_fget : ∀ {fs : Fields} {m : Model}, ModelOk m → (∀ e ∈ fs, LegalType e.2.layers) →
    (names fs).Nodup → (∀ k ∈ names fs, k ∈ names m.fields ∧ k ≠ m.pk) → ∀ x,
    fget (updateFields m fs).fields x = (match fget fs x with | some g => some g | none => fget m.fields x)
  | [], _, _, _, _, _, _ => rfl
  | (k, f) :: fs, m, hm, h1, h3, h2, x => by
    obtain ⟨u1, u2, u3, u4, _⟩ := Gns.updateField_ok (f := f) hm (h1 (k, f) (by simp)) (h2 k (by simp)).1 (h2 k (by simp)).2
    rw [Gns.names_cons, List.nodup_cons] at h3
    rw [updateFields, updateFields_fget u2 (fun e he => h1 e (by simp [he])) h3.2 (by
      intro y hy
      rw [u3, u4]
      exact h2 y (by simp [hy]))]
    obtain ⟨g, hg⟩ := Option.isSome_iff_exists.1 (Gns.fget_isSome.2 (h2 k (by simp)).1)
    have he : m.updateField k f = ({ m with fields := Gns.ferase m.fields k ++ [(k, f)] }, true) := by
      simp [Gns.Model.updateField, Gns.fupdate, hg]
    rw [he]
    simp only [Gns.fget_append, Gns.fget_ferase _ hm.fields.1]
    by_cases hx : k = x
    · subst hx
      rw [fget_none.2 h3.1]
      simp [fget]
    · simp only [fget, hx, if_false]
      cases fget fs x with
      | some g => rfl
      | none => simp

/-- **C34.** Whatever `ALTER MODEL UPDATE` asks for: in the resulting model every column is still there, and
each value that was admissible in it still is. -/
theorem C34_values_stay_valid {perm : Fields → Fields} (hperm : ∀ l, (perm l).Perm l) {m : Model} (hm : ModelOk m)
    (es : List Expanded) {k : String} {f : Field} (hf : fget m.fields k = some f) :
    ∃ g, fget (alterModel perm m (.update es)).fields k = some g ∧ ∀ v, ValidFor f v → ValidFor g v := by
  rw [alterModel]
  split
  · rename_i fs hp
    rw [plan] at hp
    obtain ⟨⟨fs', o, nl, d⟩, h1, h2⟩ := Res.bind_eq_ok hp
    cases o with
    | false => simp at h2
    | true =>
      simp only [if_true, Res.ok.injEq, Prod.mk.injEq] at h2
      obtain ⟨h2, _⟩ := h2
      split at h2 <;> cases h2
  · rename_i fs hp
    obtain ⟨p1, p2⟩ := Gns.plan_update hperm hm.fields hp
    have hw : ∀ e ∈ fs, ∃ cur, fget m.fields e.1 = some cur ∧ Widens cur e.2 := by
      rw [plan] at hp
      obtain ⟨⟨fs', o, nl, d⟩, h1, h2⟩ := Res.bind_eq_ok hp
      cases o with
      | false => simp at h2
      | true =>
        simp only [if_true, Res.ok.injEq, Prod.mk.injEq] at h2
        obtain ⟨h2, rfl⟩ := h2
        split at h2
        · cases h2
          have := (planUpdate_widens m hm.fields h1 (by simp)).2
          exact fun e he => this e ((hperm fs').mem_iff.1 he)
        · cases h2
    rw [updateFields_fget hm p1.2 p1.1 p2]
    cases hg : fget fs k with
    | none => exact ⟨f, hf, fun _ h => h⟩
    | some g =>
      obtain ⟨cur, c1, c2⟩ := hw _ (fget_mem hg)
      simp only at c1 c2
      rw [hf] at c1
      cases c1
      exact ⟨g, rfl, c2⟩
  · rename_i ns hp
    rw [plan] at hp
    obtain ⟨⟨fs', o, nl, d⟩, h1, h2⟩ := Res.bind_eq_ok hp
    cases o with
    | false => simp at h2
    | true =>
      simp only [if_true, Res.ok.injEq, Prod.mk.injEq] at h2
      obtain ⟨h2, _⟩ := h2
      split at h2 <;> cases h2
  · exact ⟨f, hf, fun _ h => h⟩

/-- **C34**, for the statement: an acknowledged `ALTER MODEL UPDATE` in a consistent catalogue. -/
theorem C34_statement {perm : Fields → Fields} (hperm : ∀ l, (perm l).Perm l) {c : Gns.Cat} (hc : Gns.Consistent c)
    {w : Gns.World} {s n : String} {es : List Expanded} {m : Model} {o : Option Bool} (hm : c.models s n = some m)
    (h : (Gns.execAlterModel perm c w s n (.update es)).reply = .ok o) :
    ∃ m', (Gns.execAlterModel perm c w s n (.update es)).cat.models s n = some m' ∧
      ∀ k f, fget m.fields k = some f → ∃ g, fget m'.fields k = some g ∧ ∀ v, ValidFor f v → ValidFor g v :=
  ⟨_, alterModel_exec hm h, fun _ _ hf => C34_values_stay_valid hperm (hc.models s n m hm) es hf⟩

/-- The rows of a table stay rows of the model, so that everything proved about tables (C31) continues to
hold. -/
theorem C34_table_stays_valid {perm : Fields → Fields} (hperm : ∀ l, (perm l).Perm l) {m : Model} (hm : ModelOk m)
    (es : List Expanded) {t : Tbl} (ht : Inv m t) :
    Inv (alterModel perm m (.update es)) { t with model := alterModel perm m (.update es) } ∧
      abs { t with model := alterModel perm m (.update es) } = abs t := by
  obtain ⟨_, _, h3, h4, ds, h5, h6⟩ := alterModel_spec hperm hm (.update es)
  have hds : (alterModel perm m (.update es)).deltas = m.deltas := by
    rw [alterModel]
    split
    · rename_i fs hp
      rw [plan] at hp
      obtain ⟨⟨fs', o, nl, d⟩, h1, h2⟩ := Res.bind_eq_ok hp
      cases o with
      | false => simp at h2
      | true =>
        simp only [if_true, Res.ok.injEq, Prod.mk.injEq] at h2
        obtain ⟨h2, _⟩ := h2
        split at h2 <;> cases h2
    · exact (updateFields_deltas _ _).1
    · rename_i ns hp
      rw [plan] at hp
      obtain ⟨⟨fs', o, nl, d⟩, h1, h2⟩ := Res.bind_eq_ok hp
      cases o with
      | false => simp at h2
      | true =>
        simp only [if_true, Res.ok.injEq, Prod.mk.injEq] at h2
        obtain ⟨h2, _⟩ := h2
        split at h2 <;> cases h2
    · rfl
  have hnil : ds = [] := by
    rw [hds] at h5
    exact List.append_cancel_left (h5.symm.trans (List.append_nil _).symm)
  subst hnil
  refine ⟨⟨rfl, ht.nodup, fun e he => ?_⟩, rfl⟩
  obtain ⟨hu, r, i1, i2, i3, i4⟩ := ht.rows e he
  refine ⟨by rw [h4]; exact hu, r, i1, i2, by rw [hds]; exact i3, fun k => ?_⟩
  rw [h3]
  constructor
  · intro g hg hk
    have hin : k ∈ names m.fields := (h6 k).2 (Gns.fget_isSome.1 (by simp [hg]))
    obtain ⟨f, hf⟩ := Option.isSome_iff_exists.1 (Gns.fget_isSome.2 hin)
    obtain ⟨x, hx, hok⟩ := (i4 k).1 f hf hk
    obtain ⟨g', hg', hw⟩ := C34_values_stay_valid hperm hm es hf
    rw [hg] at hg'
    cases hg'
    refine ⟨x, hx, ?_⟩
    rcases hok with rfl | hok
    · exact .inl rfl
    · rcases hw x (.inr hok) with ⟨rfl, _⟩ | h
      · exact .inl rfl
      · exact .inr h
  · rintro (hk | hk)
    · refine (i4 k).2 (.inl (fget_none.2 fun hin => ?_))
      exact fget_none.1 hk ((h6 k).1 hin)
    · exact (i4 k).2 (.inr hk)

/-! ### Examples -/

def exUpdate (k ty : String) (nullable : Bool) : AlterKind :=
  .update [⟨k, [⟨Verif.encStr ty, true⟩], [("nullable", .data (.bool nullable))]⟩]

/-- Widening is accepted, narrowing is refused (it would need a lock), and so is taking away null. -/
example :
    (plan id exModel (exUpdate "n" "uint32" false)).isOk = true ∧
    (fget (alterModel id exModel (exUpdate "n" "uint32" false)).fields "n").map (·.layers) = some [.uint32] ∧
    (fget (alterModel id exModel2 (exUpdate "n" "uint32" true)).fields "n").map (·.nullable) = some true ∧
    (match plan id (alterModel id exModel (exUpdate "n" "uint32" false)) (exUpdate "n" "uint8" false) with
      | .ok (_, nl) => nl | _ => true) = false ∧
    (match plan id exModel (exUpdate "o" "uint8" false) with | .ok (_, nl) => nl | _ => true) = false := by
  decide +kernel

end Verif.Dml
