import Verif.Gns.Cat
import Verif.Gns.Same
import Verif.Data.LayersTheorems
/-!
Lemmas about column maps, `ALTER MODEL` plans and the model loops, for C09 and C35.
-/
namespace Verif.Gns
open Verif.Enc (DVal Dict Uuid SpaceId ModelId Layout Fields Event)

/-! ### Column maps -/

/-- The names of the columns. -/
def names (fs : Fields) : List String := fs.map (·.1)

@[simp] theorem names_nil : names [] = [] := rfl
@[simp] theorem names_cons (k : String) (f : Field) (fs : Fields) : names ((k, f) :: fs) = k :: names fs := rfl
@[simp] theorem names_append (a b : Fields) : names (a ++ b) = names a ++ names b := by simp [names]

theorem fget_none {fs : Fields} {k : String} : fget fs k = none ↔ k ∉ names fs := by
  induction fs with
  | nil => simp [fget]
  | cons e es ih =>
    obtain ⟨x, f⟩ := e
    simp only [fget, names_cons, List.mem_cons]
    split
    · rename_i h; simp [h]
    · rename_i h; rw [ih]; simp [Ne.symm h]

theorem fget_isSome {fs : Fields} {k : String} : (fget fs k).isSome ↔ k ∈ names fs := by
  have := @fget_none fs k
  cases h : fget fs k <;> simp_all

theorem fget_mem {fs : Fields} {k : String} {f : Field} (h : fget fs k = some f) : (k, f) ∈ fs := by
  induction fs with
  | nil => simp [fget] at h
  | cons e es ih =>
    obtain ⟨x, g⟩ := e
    rw [fget] at h
    split at h
    · rename_i hx; cases h; simp [hx]
    · exact List.mem_cons_of_mem _ (ih h)

theorem fget_of_mem {fs : Fields} {k : String} {f : Field} (hn : (names fs).Nodup) (h : (k, f) ∈ fs) :
    fget fs k = some f := by
  induction fs with
  | nil => simp at h
  | cons e es ih =>
    obtain ⟨x, g⟩ := e
    rw [fget]
    simp only [names_cons, List.nodup_cons] at hn
    rcases List.mem_cons.1 h with h | h
    · cases h; simp
    · have : k ∈ names es := List.mem_map.2 ⟨_, h, rfl⟩
      rw [if_neg (fun hx : x = k => hn.1 (hx ▸ this))]
      exact ih hn.2 h

theorem fget_append (a b : Fields) (k : String) : fget (a ++ b) k = (fget a k).or (fget b k) := by
  induction a with
  | nil => simp [fget]
  | cons e es ih =>
    obtain ⟨x, g⟩ := e
    rw [List.cons_append, fget, fget]
    split
    · rfl
    · exact ih

theorem names_ferase (fs : Fields) (k : String) : names (ferase fs k) = (names fs).erase k := by
  induction fs with
  | nil => simp [ferase]
  | cons e es ih =>
    obtain ⟨x, g⟩ := e
    rw [ferase]
    split
    · rename_i h; simp [h]
    · rename_i h; simp [h, ih]

theorem fget_ferase (fs : Fields) (hn : (names fs).Nodup) (k x : String) :
    fget (ferase fs k) x = if k = x then none else fget fs x := by
  induction fs with
  | nil => simp [ferase, fget]
  | cons e es ih =>
    obtain ⟨y, g⟩ := e
    simp only [names_cons, List.nodup_cons] at hn
    rw [ferase]
    split
    · rename_i h
      subst h
      split
      · rename_i h; subst h; exact fget_none.2 hn.1
      · rename_i h; rw [fget, if_neg h]
    · rename_i h
      rw [fget, fget, ih hn.2]
      split
      · rename_i h2; subst h2; rw [if_neg (Ne.symm h)]
      · rfl

theorem mem_ferase {fs : Fields} {k : String} {e : String × Field} (h : e ∈ ferase fs k) : e ∈ fs := by
  induction fs with
  | nil => simp [ferase] at h
  | cons x es ih =>
    obtain ⟨y, g⟩ := x
    rw [ferase] at h
    split at h
    · exact List.mem_cons_of_mem _ h
    · rcases List.mem_cons.1 h with h | h
      · simp [h]
      · exact List.mem_cons_of_mem _ (ih h)

/-! ### Layers -/

theorem parseLayers_legal {spec : List LayerSpec} {n : Bool} {f : Field} (h : parseLayers spec n = some f) :
    LegalType f.layers ∧ f.nullable = n := by
  have := (C39_declaration_exact spec n f).1 h
  exact ⟨this.1, this.2.1⟩

theorem legal_cons {t : Tag} {ts : List Tag} (h : LegalType (t :: ts)) :
    (ts = [] ∧ t ≠ .list) ∨ (t = .list ∧ LegalType ts) := by
  obtain ⟨n, u, hu, e⟩ := h
  cases n with
  | zero => simp at e; exact .inl ⟨e.2, e.1 ▸ hu⟩
  | succ n =>
    simp [List.replicate_succ] at e
    exact .inr ⟨e.1, n, u, hu, e.2⟩

theorem legal_of_cons {t : Tag} {ts : List Tag}
    (h : (ts = [] ∧ t ≠ .list) ∨ (t = .list ∧ LegalType ts)) : LegalType (t :: ts) := by
  rcases h with ⟨rfl, h⟩ | ⟨rfl, n, u, hu, rfl⟩
  · exact ⟨0, t, h, rfl⟩
  · exact ⟨n + 1, u, hu, by simp [List.replicate_succ]⟩

theorem interop_list {t n : Tag} (h : interop t n = true) : t ≠ .list ∧ n ≠ .list := by
  cases t <;> cases n <;> simp_all [interop, Tag.cls]

theorem ldeltasLoop_legal : ∀ {ls : List LayerSpec} {cur r : List Tag} {nl d nl' d' : Bool},
    ldeltasLoop ls cur nl d = .ok (r, nl', d') → LegalType cur → LegalType r
  | [], cur, r, nl, d, nl', d', h, hc => by rw [ldeltasLoop] at h; cases h; exact hc
  | _ :: _, [], r, nl, d, nl', d', h, hc => by rw [ldeltasLoop] at h; cases h; exact hc
  | l :: ls, t :: ts, r, nl, d, nl', d', h, hc => by
    rw [ldeltasLoop] at h
    split at h
    · cases h
    · rename_i n hn
      split at h
      · rename_i htn
        subst htn
        split at h
        · obtain ⟨⟨r', a, b⟩, h1, h2⟩ := Res.bind_eq_ok h
          cases h2
          rcases legal_cons hc with ⟨rfl, ht⟩ | ⟨rfl, ht⟩
          · cases ls <;> (rw [ldeltasLoop] at h1; cases h1; exact legal_of_cons (.inl ⟨rfl, ht⟩))
          · exact legal_of_cons (.inr ⟨rfl, ldeltasLoop_legal h1 ht⟩)
        · cases h
      · split at h
        · rename_i hi
          obtain ⟨i1, i2⟩ := interop_list hi
          split at h
          · obtain ⟨⟨r', a, b⟩, h1, h2⟩ := Res.bind_eq_ok h
            cases h2
            rcases legal_cons hc with ⟨rfl, ht⟩ | ⟨rfl, ht⟩
            · cases ls <;> (rw [ldeltasLoop] at h1; cases h1; exact legal_of_cons (.inl ⟨rfl, i2⟩))
            · exact absurd rfl i1
          · cases h
        · cases h

theorem ldeltas_legal {cur f : Field} {ls : List LayerSpec} {n nl d : Bool}
    (h : ldeltas cur ls n = .ok (f, nl, d)) (hc : LegalType cur.layers) : LegalType f.layers := by
  rw [ldeltas] at h
  split at h
  · cases h
  · obtain ⟨⟨r', a, b⟩, h1, h2⟩ := Res.bind_eq_ok h
    cases h2
    exact ldeltasLoop_legal h1 hc

/-! ### Plans -/

/-- Distinct names, and a legal type for each column. -/
def FieldsOk (fs : Fields) : Prop := (names fs).Nodup ∧ ∀ e ∈ fs, LegalType e.2.layers

theorem finsert_ok {fs fs' : Fields} {k : String} {f : Field} (h : finsert fs k f = (fs', true)) :
    k ∉ names fs ∧ fs' = fs ++ [(k, f)] := by
  rw [finsert] at h
  split at h
  · cases h
  · rename_i hn
    cases h
    exact ⟨fget_none.1 hn, rfl⟩

theorem FieldsOk.snoc {fs : Fields} {k : String} {f : Field} (h : FieldsOk fs) (hk : k ∉ names fs)
    (hf : LegalType f.layers) : FieldsOk (fs ++ [(k, f)]) := by
  refine ⟨?_, ?_⟩
  · rw [names_append]
    refine List.nodup_append.2 ⟨h.1, by simp, ?_⟩
    intro a ha b hb
    simp at hb
    rintro rfl
    exact hk (hb ▸ ha)
  · intro e he
    rcases List.mem_append.1 he with he | he
    · exact h.2 e he
    · simp at he; subst he; exact hf

theorem planAdd_spec (m : Model) : ∀ {es : List Expanded} {fs fs' : Fields} {okay : Bool},
    planAdd m es fs okay = .ok (fs', true) → FieldsOk fs → (∀ k ∈ names fs, k ∉ names m.fields) →
    okay = true ∧ FieldsOk fs' ∧ ∀ k ∈ names fs', k ∉ names m.fields
  | [], fs, fs', okay, h, h1, h2 => by rw [planAdd] at h; cases h; exact ⟨rfl, h1, h2⟩
  | e :: es, fs, fs', okay, h, h1, h2 => by
    rw [planAdd] at h
    cases okay with
    | false => simp at h
    | true =>
      rw [if_pos rfl] at h
      obtain ⟨⟨ps, nu⟩, h3, h4⟩ := Res.bind_eq_ok h
      simp only at h4
      split at h4
      · cases h4
      · rename_i f hf
        generalize hi : finsert fs e.name f = x at h4
        obtain ⟨fs1, ins⟩ := x
        simp only at h4
        -- the recursive call must have been made with `okay`
        have ho : ((fget m.fields e.name).isNone && e.name != m.pk && ins) = true := by
          cases hx : ((fget m.fields e.name).isNone && e.name != m.pk && ins) with
          | true => rfl
          | false => rw [hx] at h4; cases es <;> simp [planAdd] at h4
        rw [ho] at h4
        simp only [Bool.and_eq_true] at ho
        obtain ⟨⟨ho1, ho2⟩, rfl⟩ := ho
        obtain ⟨i1, rfl⟩ := finsert_ok hi
        have hfn : e.name ∉ names m.fields := fget_none.1 (by simpa using ho1)
        obtain ⟨_, r⟩ := planAdd_spec m h4 (h1.snoc i1 (parseLayers_legal hf).1) (by
          intro k hk
          rw [names_append] at hk
          rcases List.mem_append.1 hk with hk | hk
          · exact h2 k hk
          · simp at hk; subst hk; exact hfn)
        exact ⟨rfl, r⟩

theorem planUpdate_spec (m : Model) (hm : FieldsOk m.fields) : ∀ {es : List Expanded} {fs fs' : Fields}
    {okay nl d nl' d' : Bool}, planUpdate m es fs okay nl d = .ok (fs', true, nl', d') → FieldsOk fs →
    (∀ k ∈ names fs, k ∈ names m.fields ∧ k ≠ m.pk) →
    FieldsOk fs' ∧ ∀ k ∈ names fs', k ∈ names m.fields ∧ k ≠ m.pk
  | [], fs, fs', okay, nl, d, nl', d', h, h1, h2 => by rw [planUpdate] at h; cases h; exact ⟨h1, h2⟩
  | e :: es, fs, fs', okay, nl, d, nl', d', h, h1, h2 => by
    rw [planUpdate] at h
    cases okay with
    | false => simp at h
    | true =>
      rw [if_pos rfl] at h
      split at h
      · cases h
      · rename_i hpk
        split at h
        · cases h
        · rename_i cur hcur
          obtain ⟨⟨ps, nu⟩, h3, h4⟩ := Res.bind_eq_ok h
          simp only at h4
          obtain ⟨⟨f, a, b⟩, h5, h6⟩ := Res.bind_eq_ok h4
          simp only at h6
          generalize hi : finsert fs e.name f = x at h6
          obtain ⟨fs1, ins⟩ := x
          simp only at h6
          have ho : (ps.isEmpty && ins) = true := by
            cases hx : (ps.isEmpty && ins) with
            | true => rfl
            | false => rw [hx] at h6; cases es <;> simp [planUpdate] at h6
          rw [ho] at h6
          simp only [Bool.and_eq_true] at ho
          obtain ⟨ho1, rfl⟩ := ho
          obtain ⟨i1, rfl⟩ := finsert_ok hi
          have hin : e.name ∈ names m.fields := fget_isSome.1 (by rw [hcur]; rfl)
          exact planUpdate_spec m hm h6 (h1.snoc i1 (ldeltas_legal h5 (hm.2 _ (fget_mem hcur)))) (by
            intro k hk
            rw [names_append] at hk
            rcases List.mem_append.1 hk with hk | hk
            · exact h2 k hk
            · simp at hk; subst hk; exact ⟨hin, hpk⟩)

theorem planRemove_spec (m : Model) : ∀ {ns : List String}, planRemove m ns = .ok () →
    ∀ k ∈ ns, k ∈ names m.fields ∧ k ≠ m.pk
  | [], _, k, hk => by simp at hk
  | n :: ns, h, k, hk => by
    rw [planRemove] at h
    split at h
    · rename_i h1
      split at h
      · cases h
      · rename_i h2
        rcases List.mem_cons.1 hk with rfl | hk
        · exact ⟨fget_isSome.1 h1, h2⟩
        · exact planRemove_spec m h k hk
    · cases h

/-! ### Models -/

/-- What every model of the catalogue satisfies: distinct columns of legal types, and the primary key is
one of them, of the recorded type, which is permitted for a key. -/
structure ModelOk (m : Model) : Prop where
  fields : FieldsOk m.fields
  pk : ∃ f, fget m.fields m.pk = some f ∧ f.layers = [m.pkTag]
  uniq : m.pkTag.uniq ≠ .illegal

/-- The primary key cannot be null. -/
def PkNonNull (m : Model) : Prop := ∀ f, fget m.fields m.pk = some f → f.nullable = false

theorem replayAdd_spec : ∀ {fs : Fields} {m : Model}, FieldsOk fs → (∀ k ∈ names fs, k ∉ names m.fields) →
    replayAdd m fs = some (addFields m fs) ∧ (addFields m fs).fields = m.fields ++ fs ∧
      (addFields m fs).pk = m.pk ∧ (addFields m fs).pkTag = m.pkTag ∧ (addFields m fs).uuid = m.uuid ∧
      (addFields m fs).deltas = m.deltas ++ (names fs).map .add
  | [], m, _, _ => by simp [replayAdd, addFields]
  | (k, f) :: fs, m, h, h2 => by
    have hk : fget m.fields k = none := fget_none.2 (h2 k (by simp))
    have h1 := h.1
    simp only [names_cons, List.nodup_cons] at h1
    have hi := replayAdd_spec (fs := fs) (m := (m.addField k f).1)
      ⟨h1.2, fun e he => h.2 e (List.mem_cons_of_mem _ he)⟩ (by
        intro x hx
        simp only [Model.addField, finsert, hk, names_append, List.mem_append, names_cons, names_nil,
          List.mem_singleton, not_or]
        exact ⟨h2 x (by simp [hx]), fun e => h1.1 (e ▸ hx)⟩)
    rw [addFields]
    simp only [replayAdd, Model.addField, finsert, hk] at hi ⊢
    obtain ⟨i1, i2, i3, i4, i5, i6⟩ := hi
    exact ⟨i1, by rw [i2]; simp, i3, i4, i5, by rw [i6]; simp⟩

theorem addFields_ok {m : Model} {fs : Fields} (hm : ModelOk m) (h : FieldsOk fs)
    (h2 : ∀ k ∈ names fs, k ∉ names m.fields) :
    ModelOk (addFields m fs) ∧ (PkNonNull m → PkNonNull (addFields m fs)) := by
  obtain ⟨_, i2, i3, i4, _, _⟩ := replayAdd_spec h h2
  obtain ⟨f, f1, f2⟩ := hm.pk
  have hg : fget (addFields m fs).fields m.pk = some f := by rw [i2, fget_append, f1]; rfl
  refine ⟨⟨⟨?_, ?_⟩, ⟨f, by rw [i3]; exact hg, by rw [i4]; exact f2⟩, by rw [i4]; exact hm.uniq⟩, ?_⟩
  · rw [i2, names_append]
    refine List.nodup_append.2 ⟨hm.fields.1, h.1, ?_⟩
    rintro a ha b hb rfl
    exact h2 a hb ha
  · intro e he
    rw [i2] at he
    rcases List.mem_append.1 he with he | he
    · exact hm.fields.2 e he
    · exact h.2 e he
  · intro hp g hgg
    rw [i3, hg] at hgg
    cases hgg
    exact hp f f1

theorem updateField_ok {m : Model} {k : String} {f : Field} (hm : ModelOk m) (hf : LegalType f.layers)
    (hk : k ∈ names m.fields) (hp : k ≠ m.pk) :
    (m.updateField k f).2 = true ∧ ModelOk (m.updateField k f).1 ∧
    (∀ x, x ∈ names (m.updateField k f).1.fields ↔ x ∈ names m.fields) ∧
    (m.updateField k f).1.pk = m.pk ∧ fget (m.updateField k f).1.fields m.pk = fget m.fields m.pk := by
  obtain ⟨g, hg⟩ := Option.isSome_iff_exists.1 (fget_isSome.2 hk)
  have he : m.updateField k f = ({ m with fields := ferase m.fields k ++ [(k, f)] }, true) := by
    simp [Model.updateField, fupdate, hg]
  rw [he]
  have hnd : (names (ferase m.fields k)).Nodup := by rw [names_ferase]; exact hm.fields.1.erase k
  have hkn : k ∉ names (ferase m.fields k) := by
    rw [names_ferase]; exact fun h => (List.Nodup.mem_erase_iff hm.fields.1).1 h |>.1 rfl
  have hpk : fget (ferase m.fields k ++ [(k, f)]) m.pk = fget m.fields m.pk := by
    rw [fget_append, fget_ferase _ hm.fields.1, if_neg hp]
    obtain ⟨p, p1, _⟩ := hm.pk
    rw [p1]; rfl
  refine ⟨rfl, ⟨?_, ?_, hm.uniq⟩, ?_, rfl, hpk⟩
  · refine FieldsOk.snoc ⟨hnd, fun e he => hm.fields.2 e (mem_ferase he)⟩ hkn hf
  · obtain ⟨p, p1, p2⟩ := hm.pk
    exact ⟨p, by show fget (ferase m.fields k ++ [(k, f)]) m.pk = _; rw [hpk, p1], p2⟩
  · intro x
    simp only [names_append, names_ferase, List.mem_append, names_cons, names_nil, List.mem_singleton,
      List.Nodup.mem_erase_iff hm.fields.1]
    constructor
    · rintro (h | rfl)
      · exact h.2
      · exact hk
    · intro h
      by_cases hx : x = k
      · exact .inr hx
      · exact .inl ⟨hx, h⟩

theorem replayUpdate_spec : ∀ {fs : Fields} {m : Model}, ModelOk m → (∀ e ∈ fs, LegalType e.2.layers) →
    (∀ k ∈ names fs, k ∈ names m.fields ∧ k ≠ m.pk) →
    replayUpdate m fs = some (updateFields m fs) ∧ ModelOk (updateFields m fs) ∧
      (PkNonNull m → PkNonNull (updateFields m fs))
  | [], m, hm, _, _ => by exact ⟨rfl, hm, id⟩
  | (k, f) :: fs, m, hm, h1, h2 => by
    obtain ⟨u1, u2, u3, u4, u5⟩ := updateField_ok (f := f) hm (h1 (k, f) (by simp))
      (h2 k (by simp)).1 (h2 k (by simp)).2
    have hi := replayUpdate_spec (fs := fs) u2 (fun e he => h1 e (List.mem_cons_of_mem _ he)) (by
      intro x hx
      rw [u3, u4]
      exact h2 x (by simp [hx]))
    rw [replayUpdate, updateFields]
    generalize m.updateField k f = y at *
    obtain ⟨m', b⟩ := y
    simp only at u1
    subst u1
    refine ⟨hi.1, hi.2.1, fun hp => hi.2.2 fun g hg => hp g ?_⟩
    rw [← u5]
    simp only at u4 ⊢
    rw [u4] at hg
    exact hg

theorem removeFields_spec : ∀ {ns : List String} {m : Model}, ModelOk m → ns.Nodup →
    (∀ k ∈ ns, k ∈ names m.fields ∧ k ≠ m.pk) →
    ∃ m', removeFields m ns = some m' ∧ ModelOk m' ∧ (PkNonNull m → PkNonNull m')
  | [], m, hm, _, _ => ⟨m, rfl, hm, id⟩
  | k :: ns, m, hm, hn, h => by
    obtain ⟨hk, hp⟩ := h k (by simp)
    obtain ⟨g, hg⟩ := Option.isSome_iff_exists.1 (fget_isSome.2 hk)
    have he : m.removeField k =
        some ({ m with fields := ferase m.fields k, deltas := m.deltas ++ [.rem k] }, true) := by
      simp [Model.removeField, fdelete, hg]
    have hpk : fget (ferase m.fields k) m.pk = fget m.fields m.pk := by
      rw [fget_ferase _ hm.fields.1, if_neg hp]
    rw [List.nodup_cons] at hn
    have hm' : ModelOk { m with fields := ferase m.fields k, deltas := m.deltas ++ [.rem k] } := by
      refine ⟨⟨?_, fun e he => hm.fields.2 e (mem_ferase he)⟩, ?_, hm.uniq⟩
      · show (names (ferase m.fields k)).Nodup
        rw [names_ferase]; exact hm.fields.1.erase k
      · obtain ⟨p, p1, p2⟩ := hm.pk
        exact ⟨p, by show fget (ferase m.fields k) m.pk = _; rw [hpk, p1], p2⟩
    obtain ⟨m', i1, i2, i3⟩ := removeFields_spec (ns := ns) hm' hn.2 (by
      intro x hx
      obtain ⟨a, b⟩ := h x (by simp [hx])
      refine ⟨?_, b⟩
      show x ∈ names (ferase m.fields k)
      rw [names_ferase, List.Nodup.mem_erase_iff hm.fields.1]
      exact ⟨fun e => hn.1 (e ▸ hx), a⟩)
    refine ⟨m', by rw [removeFields, he]; exact i1, i2, fun hp => i3 fun f hf => hp f ?_⟩
    rw [← hpk]
    exact hf

/-! ### `CREATE MODEL` -/

/-- The columns with their nullability. -/
def shape (fs : Fields) : List (String × Bool) := fs.map fun e => (e.1, e.2.nullable)

theorem createLoop_spec : ∀ {ss : List FieldSpec} {fs fs' : Fields} {pk pk' : Option String} {n n' : Nat}
    {okay : Bool}, createLoop ss fs pk n okay = .ok (fs', pk', n', true) → FieldsOk fs →
    okay = true ∧ FieldsOk fs' ∧ shape fs' = shape fs ++ ss.map (fun s => (s.name, s.null)) ∧
      ((pk' = pk ∧ ∀ s ∈ ss, s.primary = false) ∨ ∃ s ∈ ss, s.primary = true ∧ s.null = false ∧ pk' = some s.name)
  | [], fs, fs', pk, pk', n, n', okay, h, h1 => by
    rw [createLoop] at h; cases h; exact ⟨rfl, h1, by simp, .inl ⟨rfl, by simp⟩⟩
  | s :: ss, fs, fs', pk, pk', n, n', okay, h, h1 => by
    rw [createLoop] at h
    cases okay with
    | false => simp at h
    | true =>
      rw [if_pos rfl] at h
      split at h
      · cases h
      · rename_i f hf
        generalize hi : finsert fs s.name f = x at h
        obtain ⟨fs1, ins⟩ := x
        simp only at h
        have ho : ((!s.primary || !s.null) && ins) = true := by
          cases hx : ((!s.primary || !s.null) && ins) with
          | true => rfl
          | false => rw [hx] at h; cases ss <;> simp [createLoop] at h
        rw [ho] at h
        simp only [Bool.and_eq_true] at ho
        obtain ⟨ho1, rfl⟩ := ho
        obtain ⟨i1, rfl⟩ := finsert_ok hi
        obtain ⟨l1, l2⟩ := parseLayers_legal hf
        obtain ⟨_, r1, r2, r3⟩ := createLoop_spec h (h1.snoc i1 l1)
        refine ⟨rfl, r1, by rw [r2]; simp [shape, l2], ?_⟩
        rcases r3 with ⟨r3, r4⟩ | ⟨t, t1, t2⟩
        · cases hp : s.primary with
          | true =>
            rw [hp] at r3
            exact .inr ⟨s, by simp, hp, by simpa [hp] using ho1, r3⟩
          | false =>
            rw [hp] at r3
            exact .inl ⟨r3, by simpa [hp] using r4⟩
        · exact .inr ⟨t, List.mem_cons_of_mem _ t1, t2⟩

theorem fget_of_shape {fs : Fields} {k : String} {b : Bool} (hn : (names fs).Nodup) (h : (k, b) ∈ shape fs) :
    ∃ f, fget fs k = some f ∧ f.nullable = b := by
  obtain ⟨⟨x, f⟩, h1, h2⟩ := List.mem_map.1 h
  cases h2
  exact ⟨f, fget_of_mem hn h1, rfl⟩

/-- The columns that a `CREATE MODEL` declares leave the primary key nullable: no column is marked
`primary`, and the first one, which becomes the key, is marked `null`. -/
def NullKey (specs : List FieldSpec) : Prop :=
  (∀ s ∈ specs, s.primary = false) ∧ ∃ s ss, specs = s :: ss ∧ s.null = true

theorem uniq_legal {t : Tag} {ts : List Tag} (h : LegalType (t :: ts)) (hu : t.uniq ≠ .illegal) : ts = [] := by
  rcases legal_cons h with ⟨h, _⟩ | ⟨rfl, _⟩
  · exact h
  · exact absurd rfl hu

theorem processCreate_spec {u : Uuid} {specs : List FieldSpec} {props : Dict} :
    processCreate u specs props ≠ .panic ∧ processCreate u specs props ≠ .hang ∧
    ∀ m, processCreate u specs props = .ok m → ModelOk m ∧ m.uuid = u ∧ m.deltas = [] ∧
      (¬ NullKey specs → PkNonNull m) := by
  have hloop : ∀ ss fs pk n o, createLoop ss fs pk n o ≠ .panic ∧ createLoop ss fs pk n o ≠ .hang := by
    intro ss
    induction ss with
    | nil => intro fs pk n o; simp [createLoop]
    | cons s ss ih =>
      intro fs pk n o
      rw [createLoop]
      split
      · split
        · simp
        · exact ih _ _ _ _
      · simp
  rw [processCreate]
  generalize hc : createLoop specs [] none 0 (props.isEmpty && !specs.isEmpty) = x
  match x with
  | .panic => exact absurd hc (hloop ..).1
  | .hang => exact absurd hc (hloop ..).2
  | .err e => simp
  | .ok (fs, pk, n, okay) =>
    simp only [Res.bind]
    cases okay with
    | false => simp
    | true =>
      obtain ⟨o1, r1, r2, r3⟩ := createLoop_spec hc ⟨by simp, by simp⟩
      simp only [shape, List.map_nil, List.nil_append] at r2
      have hne : specs ≠ [] := by rintro rfl; simp at o1
      obtain ⟨s0, ss, rfl⟩ : ∃ s ss, specs = s :: ss := by
        cases specs with
        | nil => exact absurd rfl hne
        | cons s ss => exact ⟨s, ss, rfl⟩
      cases fs with
      | nil => simp at r2
      | cons e0 es =>
        -- the key and its nullability
        have key : ∃ k b, pk.or (((e0 :: es) : Fields).head?.map (·.1)) = some k ∧ (k, b) ∈ shape (e0 :: es) ∧
            (¬ NullKey (s0 :: ss) → b = false) := by
          rcases r3 with ⟨rfl, hp⟩ | ⟨s, s1, s2, s3, rfl⟩
          · refine ⟨e0.1, e0.2.nullable, rfl, by simp [shape], fun hnk => ?_⟩
            simp at r2
            rw [r2.1.2]
            cases hb : s0.null with
            | false => rfl
            | true => exact absurd ⟨hp, s0, ss, rfl, hb⟩ hnk
          · refine ⟨s.name, false, rfl, ?_, fun _ => rfl⟩
            rw [shape, r2]
            exact List.mem_map.2 ⟨s, s1, by rw [s3]⟩
        obtain ⟨k, b, k1, k2, k3⟩ := key
        obtain ⟨f, f1, f2⟩ := fget_of_shape r1.1 k2
        rw [k1]
        by_cases hn : n ≤ 1
        · simp only [Bool.true_and, hn, decide_true, if_true, f1]
          have hl := r1.2 _ (fget_mem f1)
          obtain ⟨fl, fnu⟩ := f
          simp only at hl f2
          cases fl with
          | nil => obtain ⟨a, b, _, h⟩ := hl; simp at h
          | cons t ts =>
            simp only
            split
            · simp
            · rename_i hu
              refine ⟨by simp, by simp, ?_⟩
              intro m hm
              cases hm
              obtain rfl := uniq_legal hl hu
              refine ⟨⟨r1, ⟨_, f1, rfl⟩, hu⟩, rfl, rfl, fun hnk g hg => ?_⟩
              simp only at hg
              rw [f1] at hg
              cases hg
              rw [f2]; exact k3 hnk
        · simp [hn]

end Verif.Gns
