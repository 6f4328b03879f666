import Verif.Batch.Model
import Verif.Dml.Table
/-!
What `finish` does to the rows.
-/
namespace Verif.Batch
open Verif.Gns (SDelta Model upd fget)
open Verif.Dml (Key Cells RowObj DKind Delta Tbl kget kdel resolve setRow colNames cput kget_append kget_kdel kget_none
  kget_mem kdel_sublist)
open Verif.Journal (SErr)

/-! ### Views -/

/-- The rows of a table as they would be written to the file now, with the version of the last change. -/
abbrev View := Key → Option (List Cell × Nat)

/-- A row as it would be written now. -/
def rowList (m : Model) (r : RowObj) : List Cell := rowCells m.pk m.fields (resolve m.deltas r).cells

def vw (t : Tbl) : View := fun k =>
  (kget t.idx k).bind fun i => (t.heap[i]?).map fun r => (rowList t.model r, r.revised)

/-- The cells that a record leaves, seen as a row of the model `m`. -/
def placed (m : Model) (schema : Nat) (e : Rec) : List Cell :=
  rowList m ⟨e.key, zipCells (others m) e.cells, schema, e.txn⟩

/-- Apply a record at once. -/
def aapply (m : Model) (schema : Nat) (A : View) (e : Rec) : View := fun k =>
  if k = e.key then
    match e.kind with
    | .delete => none
    | _ => some (placed m schema e, e.txn)
  else A k

theorem resolve_schema_le (ds : List SDelta) (r : RowObj) (h : ¬ ds.length ≤ r.schema + 1) :
    (resolve ds r).schema = ds.length - 1 := by
  have h1 : ¬ ds.length ≤ r.schema := by omega
  rw [resolve, if_neg h1]
  cases hd : ds.drop (r.schema + 1) with
  | nil =>
    have := congrArg List.length hd
    simp at this
    omega
  | cons d l => rfl

theorem resolve_late (ds : List SDelta) (r : RowObj) (h : ds.length ≤ r.schema + 1) : resolve ds r = r := by
  rw [resolve]
  split
  · rfl
  · rw [List.drop_eq_nil_of_le h]

/-- Resolving twice is resolving once. -/
theorem resolve_idem (ds : List SDelta) (r : RowObj) : resolve ds (resolve ds r) = resolve ds r := by
  by_cases h : ds.length ≤ r.schema + 1
  · rw [resolve_late ds r h, resolve_late ds r h]
  · have := resolve_schema_le ds r h
    exact resolve_late _ _ (by omega)

theorem resolve_key (ds : List SDelta) (r : RowObj) :
    (resolve ds r).key = r.key ∧ (resolve ds r).revised = r.revised := by
  rw [resolve]
  split
  · exact ⟨rfl, rfl⟩
  · split <;> exact ⟨rfl, rfl⟩

theorem rowList_resolve (m : Model) (r : RowObj) : rowList m (resolve m.deltas r) = rowList m r := by
  rw [rowList, rowList, resolve_idem]

/-! ### The restored table -/

/-- The index refers to existing rows and has no key twice. -/
structure RInv (t : Tbl) : Prop where
  nodup : (t.idx.map (·.1)).Nodup
  valid : ∀ e ∈ t.idx, ∃ r, t.heap[e.2]? = some r ∧ r.key = e.1

theorem RInv.lookup {t : Tbl} (h : RInv t) (k : Key) :
    (kget t.idx k = none ∧ vw t k = none) ∨
    ∃ i r, kget t.idx k = some i ∧ t.heap[i]? = some r ∧ vw t k = some (rowList t.model r, r.revised) := by
  cases hi : kget t.idx k with
  | none => exact .inl ⟨rfl, by simp [vw, hi]⟩
  | some i =>
    obtain ⟨r, hr, _⟩ := h.valid _ (kget_mem hi)
    exact .inr ⟨i, _, rfl, hr, by simp [vw, hi, hr]⟩

/-- The row that a record leaves. -/
def rowFrom (m : Model) (schema : Nat) (e : Rec) : RowObj :=
  resolve m.deltas ⟨e.key, zipCells (others m) e.cells, schema, e.txn⟩

theorem place_spec {t : Tbl} (h : RInv t) {schema : Nat} {e : Rec} (hk : e.kind ≠ .delete)
    (hv : ∀ c v, vw t e.key = some (c, v) → v < e.txn) :
    ∃ t', place t schema e = .ok t' ∧ RInv t' ∧ t'.model = t.model ∧ t'.queue = t.queue ∧
      t'.heap = t.heap ++ [rowFrom t.model schema e] ∧ vw t' = aapply t.model schema (vw t) e := by
  let r := rowFrom t.model schema e
  let t' : Tbl := { t with heap := t.heap ++ [r], idx := kdel t.idx e.key ++ [(e.key, t.heap.length)] }
  refine ⟨t', ?_, ⟨?_, ?_⟩, rfl, rfl, rfl, ?_⟩
  · rw [place]
    rcases h.lookup e.key with ⟨hi, ha⟩ | ⟨i, o, hi, hr, ha⟩
    · simp only [hi]; rfl
    · simp only [hi, Option.bind_some, hr]
      rw [if_pos (.inr (hv _ _ ha))]
      rfl
  · simp only [t', List.map_append, List.map_cons, List.map_nil]
    rw [List.nodup_append]
    refine ⟨h.nodup.sublist ((kdel_sublist _ _).map _), by simp, ?_⟩
    intro a ha b hb
    simp only [List.mem_singleton] at hb
    subst hb
    rintro rfl
    have := kget_kdel h.nodup e.key e.key
    rw [if_pos rfl] at this
    exact kget_none.1 this ha
  · intro x hx
    simp only [t', List.mem_append, List.mem_singleton] at hx
    rcases hx with hx | rfl
    · obtain ⟨o, h1, h2⟩ := h.valid x ((kdel_sublist _ _).subset hx)
      refine ⟨o, ?_, h2⟩
      simp only [t']
      rw [List.getElem?_append_left (List.getElem?_eq_some_iff.1 h1).1, h1]
    · exact ⟨r, by simp [t'], (resolve_key _ _).1⟩
  · funext k
    simp only [vw, aapply, t', kget_append, kget_kdel h.nodup]
    by_cases ek : k = e.key
    · subst ek
      have hrr : r.revised = e.txn := (resolve_key _ _).2
      have hrl : rowList t.model r = placed t.model schema e := rowList_resolve _ _
      simp only [if_true, kget, Option.bind_some]
      rw [List.getElem?_append_right (Nat.le_refl _)]
      simp only [Nat.sub_self, List.getElem?_cons_zero, Option.map_some, hrr, hrl]
    · simp only [ek, if_false]
      cases hi : kget t.idx k with
      | none =>
        have : ¬ e.key = k := fun h => ek h.symm
        simp [kget, this]
      | some i =>
        obtain ⟨o, h1, h2⟩ := h.valid _ (kget_mem hi)
        simp only [Option.bind_some]
        rw [List.getElem?_append_left (List.getElem?_eq_some_iff.1 h1).1]

/-! ### Pending deletions -/

/-- The rows after the pending deletions. -/
def pendView (p : Pend) (A : View) : View := fun k =>
  match kget p k with
  | none => A k
  | some v =>
    match A k with
    | some (c, r) => if r > v then some (c, r) else none
    | none => none

theorem dropOne_spec {t : Tbl} (h : RInv t) (k : Key) (v : Nat) :
    RInv (dropOne t k v) ∧ (dropOne t k v).model = t.model ∧ (dropOne t k v).queue = t.queue ∧
      (dropOne t k v).heap = t.heap ∧
      ∀ x, vw (dropOne t k v) x = if x = k then pendView [(k, v)] (vw t) k else vw t x := by
  rw [dropOne]
  rcases h.lookup k with ⟨hi, ha⟩ | ⟨i, r, hi, hr, ha⟩
  · simp only [hi, Option.bind_none]
    refine ⟨h, trivial, trivial, trivial, fun x => ?_⟩
    by_cases e : x = k
    · subst e; simp [pendView, kget, ha]
    · rw [if_neg e]
  · simp only [hi, Option.bind_some, hr]
    by_cases hv : r.revised > v
    · rw [if_pos hv]
      refine ⟨h, rfl, rfl, rfl, fun x => ?_⟩
      split
      · rename_i e; subst e; simp [pendView, kget, ha, hv]
      · rfl
    · rw [if_neg hv]
      refine ⟨⟨h.nodup.sublist ((kdel_sublist _ _).map _), fun e he => h.valid e ((kdel_sublist _ _).subset he)⟩,
        rfl, rfl, rfl, fun x => ?_⟩
      simp only [vw, kget_kdel h.nodup]
      split
      · rename_i e
        subst e
        have : pendView [(x, v)] (vw t) x = none := by simp [pendView, kget, ha, hv]
        exact this.symm
      · rfl

/-- The second loop of `finish`, in whatever order. -/
theorem dropAll_spec : ∀ (p : Pend) {t : Tbl} (last : Nat), RInv t → (p.map (·.1)).Nodup →
    RInv (dropAll p t last).1 ∧ (dropAll p t last).1.model = t.model ∧ (dropAll p t last).1.queue = t.queue ∧
      (dropAll p t last).1.heap = t.heap ∧
      vw (dropAll p t last).1 = pendView p (vw t) ∧
      last ≤ (dropAll p t last).2 ∧ ∀ e ∈ p, e.2 ≤ (dropAll p t last).2
  | [], t, last, h, _ => ⟨h, rfl, rfl, rfl, by funext k; simp [dropAll, pendView, kget], Nat.le_refl _, by simp⟩
  | (k, v) :: p, t, last, h, hn => by
    rw [List.map_cons, List.nodup_cons] at hn
    obtain ⟨h1, h2, h3, h3', h4⟩ := dropOne_spec h k v
    obtain ⟨i1, i2, i3, i3', i4, i5, i6⟩ := dropAll_spec p (max last v) h1 hn.2
    rw [dropAll]
    refine ⟨i1, i2.trans h2, i3.trans h3, i3'.trans h3', ?_, by omega, ?_⟩
    · rw [i4]
      funext x
      simp only [pendView, kget, h4]
      by_cases e : k = x
      · subst e
        have : kget p k = none := kget_none.2 hn.1
        simp [this]
      · have e' : ¬ x = k := fun h => e h.symm
        simp only [e, e', if_false]
    · intro e he
      simp only [List.mem_cons] at he
      rcases he with rfl | he
      · simp only; omega
      · exact i6 e he

theorem notePend_spec {p : Pend} (hn : (p.map (·.1)).Nodup) (k : Key) (v : Nat) (hp : ∀ e ∈ p, e.1 = k → e.2 < v) :
    ((notePend p k v).map (·.1)).Nodup ∧
      (∀ x, kget (notePend p k v) x = if x = k then some v else kget p x) ∧
      (∀ e ∈ notePend p k v, e ∈ p ∨ e = (k, v)) := by
  rw [notePend]
  cases hg : kget p k with
  | none =>
    refine ⟨?_, fun x => ?_, fun e he => by simpa using he⟩
    · simp only [List.map_append, List.map_cons, List.map_nil]
      rw [List.nodup_append]
      refine ⟨hn, by simp, ?_⟩
      intro a ha b hb
      simp only [List.mem_singleton] at hb
      subst hb
      rintro rfl
      exact kget_none.1 hg ha
    · simp only [kget_append]
      by_cases e : x = k
      · subst e; simp [hg, kget]
      · have e' : ¬ k = x := fun h => e h.symm
        simp only [e, if_false, kget, e']
        cases kget p x <;> rfl
  | some o =>
    have := hp _ (kget_mem hg) rfl
    simp only at this
    have hgt : ¬ o > v := by omega
    simp only [hgt, if_false]
    refine ⟨?_, fun x => ?_, fun e he => ?_⟩
    · simp only [List.map_append, List.map_cons, List.map_nil]
      rw [List.nodup_append]
      refine ⟨hn.sublist ((kdel_sublist _ _).map _), by simp, ?_⟩
      intro a ha b hb
      simp only [List.mem_singleton] at hb
      rintro rfl
      have := kget_kdel hn k k
      rw [if_pos rfl] at this
      rw [hb] at ha
      exact kget_none.1 this ha
    · simp only [kget_append, kget_kdel hn]
      by_cases e : x = k
      · subst e; simp [kget]
      · have e' : ¬ k = x := fun h => e h.symm
        simp only [e, if_false, kget, e']
        cases kget p x <;> rfl
    · simp only [List.mem_append, List.mem_singleton] at he
      rcases he with he | rfl
      · exact .inl ((kdel_sublist _ _).subset he)
      · exact .inr rfl

/-! ### `finish` -/

theorem placeLoop_spec {m : Model} {schema : Nat} : ∀ (es : List Rec) {t : Tbl} {p : Pend} (last : Nat),
    RInv t → t.model = m → (p.map (·.1)).Nodup →
    es.Pairwise (fun a b => a.key = b.key → a.txn < b.txn) → (∀ e ∈ es, ∀ c v, vw t e.key = some (c, v) → v < e.txn) →
    (∀ e ∈ es, ∀ x ∈ p, x.1 = e.key → x.2 < e.txn) →
    ∃ t' p' last', placeLoop schema es t p last = .ok (t', p', last') ∧ RInv t' ∧ t'.model = m ∧
      t'.queue = t.queue ∧ (p'.map (·.1)).Nodup ∧
      (∀ r ∈ t'.heap, r ∈ t.heap ∨ ∃ e ∈ es, e.kind ≠ .delete ∧ r = rowFrom m schema e) ∧
      pendView p' (vw t') = es.foldl (aapply m schema) (pendView p (vw t)) ∧
      last ≤ last' ∧ (∀ x ∈ p, ∃ y ∈ p', x.2 ≤ y.2) ∧
      ∀ e ∈ es, e.txn ≤ last' ∨ ∃ x ∈ p', e.txn ≤ x.2
  | [], t, p, last, ht, hm, hn, _, _, _ =>
    ⟨t, p, last, rfl, ht, hm, rfl, hn, fun r hr => .inl hr, rfl, Nat.le_refl _, fun x hx => ⟨x, hx, Nat.le_refl _⟩, by simp⟩
  | e :: es, t, p, last, ht, hm, hn, hi, hv, hp => by
    rw [List.pairwise_cons] at hi
    by_cases hk : e.kind = .delete
    · obtain ⟨n1, n2, n3⟩ := notePend_spec hn e.key e.txn (fun x hx => hp e (by simp) x hx)
      obtain ⟨t', p', last', i1, i2, i3, i4, i5, i5', i6, i7, i8, i9⟩ := placeLoop_spec es (p := notePend p e.key e.txn) last ht hm
        n1 hi.2 (fun x hx => hv x (by simp [hx])) (by
          intro x hx y hy hk
          rcases n3 y hy with hy | rfl
          · exact hp x (by simp [hx]) y hy hk
          · exact hi.1 x hx hk)
      refine ⟨t', p', last', ?_, i2, i3, i4, i5, ?_, ?_, i7, ?_, ?_⟩
      · rw [placeLoop]; simp only [hk]; exact i1
      · intro r hr
        rcases i5' r hr with h | ⟨x, hx, h⟩
        · exact .inl h
        · exact .inr ⟨x, by simp [hx], h⟩
      · rw [i6, List.foldl_cons]
        congr 1
        funext x
        simp only [pendView, n2, aapply, hk]
        by_cases ex : x = e.key
        · subst ex
          simp only [if_true]
          cases hvw : vw t e.key with
          | none => rfl
          | some cv =>
            obtain ⟨c, v⟩ := cv
            have := hv e (by simp) _ _ hvw
            simp only
            rw [if_neg (by omega)]
        · simp only [ex, if_false]
      · intro x hx
        have hxk : ∃ y ∈ notePend p e.key e.txn, x.2 ≤ y.2 := by
          by_cases ek : x.1 = e.key
          · have := n2 e.key
            rw [if_pos rfl] at this
            exact ⟨_, kget_mem this, Nat.le_of_lt (hp e (by simp) x hx ek)⟩
          · have h1 : kget p x.1 = some x.2 := Dml.kget_of_mem hn hx
            have := n2 x.1
            rw [if_neg ek, h1] at this
            exact ⟨_, kget_mem this, Nat.le_refl _⟩
        obtain ⟨y, hy, hxy⟩ := hxk
        obtain ⟨z, hz, hyz⟩ := i8 y hy
        exact ⟨z, hz, Nat.le_trans hxy hyz⟩
      · intro x hx
        simp only [List.mem_cons] at hx
        rcases hx with rfl | hx
        · have := n2 x.key
          rw [if_pos rfl] at this
          exact .inr (i8 _ (kget_mem this))
        · exact i9 x hx
    · obtain ⟨t1, p1, p2, p3, p4, p4', p5⟩ := place_spec (schema := schema) ht hk (fun c v h => hv e (by simp) c v h)
      rw [hm] at p5 p4'
      obtain ⟨t', p', last', i1, i2, i3, i4, i5, i5', i6, i7, i8, i9⟩ := placeLoop_spec es (t := t1) (p := p) (max last e.txn)
        p2 (p3.trans hm) hn hi.2 (by
          intro x hx c v h
          rw [p5, aapply] at h
          split at h
          · rename_i hk'
            have := hi.1 x hx hk'.symm
            cases hd : e.kind <;> simp_all <;> omega
          · exact hv x (by simp [hx]) c v h) (fun x hx => hp x (by simp [hx]))
      refine ⟨t', p', last', ?_, i2, i3, i4.trans p4, i5, ?_, ?_, by omega, i8, ?_⟩
      · rw [placeLoop]
        cases hd : e.kind with
        | delete => exact absurd hd hk
        | insert => simp only [p1, Res.bind]; exact i1
        | update => simp only [p1, Res.bind]; exact i1
      · intro r hr
        rcases i5' r hr with h | ⟨x, hx, h⟩
        · rw [p4'] at h
          simp only [List.mem_append, List.mem_singleton] at h
          rcases h with h | rfl
          · exact .inl h
          · exact .inr ⟨e, by simp, hk, rfl⟩
        · exact .inr ⟨x, by simp [hx], h⟩
      · rw [i6, List.foldl_cons, p5]
        congr 1
        funext x
        simp only [pendView, aapply]
        by_cases ex : x = e.key
        · subst ex
          simp only [if_true]
          cases hg : kget p e.key with
          | none => cases hd : e.kind <;> simp_all
          | some v =>
            have := hp e (by simp) _ (kget_mem hg) rfl
            simp only at this
            cases hd : e.kind <;> simp_all
        · simp only [ex, if_false]
      · intro x hx
        simp only [List.mem_cons] at hx
        rcases hx with rfl | hx
        · left; omega
        · exact i9 x hx

/-- A batch whose records have increasing versions for each key, all later than what the table has for the key: the records
take effect one after the other. -/
theorem finish_keys {t : Tbl} (ht : RInv t) {schema : Nat} {es : List Rec}
    (hi : es.Pairwise (fun a b => a.key = b.key → a.txn < b.txn)) (hv : ∀ e ∈ es, ∀ c v, vw t e.key = some (c, v) → v < e.txn) :
    ∃ t', finish t ⟨schema, es⟩ = .ok t' ∧ RInv t' ∧ t'.model = t.model ∧ t'.queue = t.queue ∧
      (∀ r ∈ t'.heap, r ∈ t.heap ∨ ∃ e ∈ es, e.kind ≠ .delete ∧ r = rowFrom t.model schema e) ∧
      vw t' = es.foldl (aapply t.model schema) (vw t) ∧ ∀ e ∈ es, e.txn < t'.ver := by
  obtain ⟨t1, p1, last1, i1, i2, i3, i4, i5, i5', i6, i7, _, i9⟩ := placeLoop_spec (schema := schema) es (p := []) 0 ht rfl
    (by simp) hi hv (by simp)
  obtain ⟨j1, j2, j3, j3', j4, j5, j6⟩ := dropAll_spec p1 last1 i2 i5
  refine ⟨{ (dropAll p1 t1 last1).1 with ver := (dropAll p1 t1 last1).2 + 1 }, ?_, ⟨j1.nodup, j1.valid⟩, j2.trans i3,
    j3.trans i4, by rw [← j3'] at i5'; exact i5', ?_, ?_⟩
  · rw [finish]; simp only [i1, Res.bind]
  · have : vw { (dropAll p1 t1 last1).1 with ver := (dropAll p1 t1 last1).2 + 1 } = vw (dropAll p1 t1 last1).1 := rfl
    rw [this, j4, i6]
    congr 1
  · intro e he
    simp only
    rcases i9 e he with h | ⟨x, hx, h⟩
    · omega
    · have := j6 x hx; omega

/-- The same for versions that increase over all records. -/
theorem finish_spec {t : Tbl} (ht : RInv t) {schema : Nat} {es : List Rec}
    (hi : es.Pairwise (fun a b => a.txn < b.txn)) (hv : ∀ e ∈ es, ∀ k c v, vw t k = some (c, v) → v < e.txn) :
    ∃ t', finish t ⟨schema, es⟩ = .ok t' ∧ RInv t' ∧ t'.model = t.model ∧ t'.queue = t.queue ∧
      (∀ r ∈ t'.heap, r ∈ t.heap ∨ ∃ e ∈ es, e.kind ≠ .delete ∧ r = rowFrom t.model schema e) ∧
      vw t' = es.foldl (aapply t.model schema) (vw t) ∧ ∀ e ∈ es, e.txn < t'.ver :=
  finish_keys ht (List.Pairwise.imp (S := fun a b : Rec => a.key = b.key → a.txn < b.txn) (fun h _ => h) hi) (fun e he c v h => hv e he e.key c v h)

end Verif.Batch
