import Verif.Old.DataLemmas
import Verif.Batch.Restore
import Verif.Batch.Life
/-!
Lemmas for C60: the rows that the batches of a file leave.
-/
namespace Verif.Old
open Verif.Gns (Model fget upd)
open Verif.Dml (Key Cells RowObj DKind Tbl kget kdel resolve setRow kget_kdel kget_append kget_mem Inv)
open Verif.Batch (Rec Parsed Pend notePend rowFrom uniqByte TagOk RInv View vw aapply placed place placeLoop place_spec placeLoop_spec
  dropOne dropAll dropAll_spec others zipCells rowList)

/-! ### Against the present restore -/

theorem oldPlace_of {t t' : Tbl} {schema : Nat} {e : Rec} (h : place t schema e = .ok t') : oldPlace t schema e = t' := by
  rw [place] at h
  rw [oldPlace]
  cases hi : kget t.idx e.key with
  | none => simp only [hi, Option.bind_none] at h ⊢; cases h; rfl
  | some i =>
    simp only [hi, Option.bind_some] at h ⊢
    cases hr : t.heap[i]? with
    | none => simp only [hr, Option.map_none] at h ⊢; cases h; rfl
    | some r =>
      simp only [hr, Option.map_some] at h ⊢
      split at h
      · cases h; rw [if_neg (by omega)]; rfl
      · cases h

theorem oldPlaces_of {schema : Nat} : ∀ {es : List Rec} {t t' : Tbl} {p p' : Pend} {last last' : Nat},
    placeLoop schema es t p last = .ok (t', p', last') → oldPlaces schema es t p = (t', p')
  | [], t, t', p, p', last, last', h => by cases h; rfl
  | e :: es, t, t', p, p', last, last', h => by
    rw [placeLoop] at h
    rw [oldPlaces]
    cases hk : e.kind with
    | delete => simp only [hk] at h ⊢; exact oldPlaces_of h
    | insert =>
      simp only [hk] at h ⊢
      obtain ⟨t1, h1, h2⟩ := Res.bind_eq_ok h
      rw [oldPlace_of h1]
      exact oldPlaces_of h2
    | update =>
      simp only [hk] at h ⊢
      obtain ⟨t1, h1, h2⟩ := Res.bind_eq_ok h
      rw [oldPlace_of h1]
      exact oldPlaces_of h2

/-- Every deletion is of a row that is there. -/
def delOk (has : Key → Prop) : List Rec → Prop
  | [] => True
  | e :: es => (e.kind = .delete → has e.key) ∧ delOk (fun k => k = e.key ∨ has k) es

/-- The same for a history in which deleted rows are gone. -/
def histOk : (Key → Prop) → List Rec → Prop
  | _, [] => True
  | has, e :: es => (e.kind = .delete → has e.key) ∧ histOk (fun k => if k = e.key then e.kind ≠ .delete else has k) es

theorem delOk_of_hist : ∀ {es : List Rec} {has has' : Key → Prop}, histOk has es → (∀ k, has k → has' k) → delOk has' es
  | [], _, _, _, _ => trivial
  | e :: es, has, has', h, hh => by
    refine ⟨fun hd => hh _ (h.1 hd), delOk_of_hist h.2 fun k hk => ?_⟩
    by_cases ek : k = e.key
    · exact .inl ek
    · simp only [ek, if_false] at hk
      exact .inr (hh k hk)

theorem delOk_congr {es : List Rec} {has has' : Key → Prop} (h : delOk has es) (hh : ∀ k, has k → has' k) : delOk has' es := by
  induction es generalizing has has' with
  | nil => trivial
  | cons e es ih =>
    refine ⟨fun hd => hh _ (h.1 hd), ih h.2 fun k hk => ?_⟩
    rcases hk with hk | hk
    · exact .inl hk
    · exact .inr (hh k hk)

theorem notePend_mem {p : Pend} {k : Key} {v : Nat} {x : Key × Nat} (h : x ∈ notePend p k v) : x ∈ p ∨ x.1 = k := by
  rw [notePend] at h
  cases hg : kget p k with
  | none =>
    simp only [hg, List.mem_append, List.mem_singleton] at h
    rcases h with h | rfl
    · exact .inl h
    · exact .inr rfl
  | some o =>
    simp only [hg] at h
    split at h
    · exact .inl h
    · simp only [List.mem_append, List.mem_singleton] at h
      rcases h with h | rfl
      · exact .inl ((Dml.kdel_sublist _ _).subset h)
      · exact .inr rfl

theorem place_idx {t t' : Tbl} {schema : Nat} {e : Rec} (hn : (t.idx.map (·.1)).Nodup) (h : place t schema e = .ok t') (k : Key) :
    kget t'.idx k ≠ none ↔ k = e.key ∨ kget t.idx k ≠ none := by
  have : t'.idx = kdel t.idx e.key ++ [(e.key, t.heap.length)] := by
    rw [place] at h
    split at h
    · split at h
      · cases h; rfl
      · cases h
    · cases h; rfl
  rw [this, kget_append, kget_kdel hn]
  by_cases ek : k = e.key
  · subst ek; simp [kget]
  · have ek' : ¬ e.key = k := fun h => ek h.symm
    simp only [ek, if_false, kget, ek', false_or]
    cases kget t.idx k <;> simp

/-- The deletions that are noted are of rows that are there. -/
theorem placeLoop_keys {m : Model} {schema : Nat} : ∀ {es : List Rec} {t t' : Tbl} {p p' : Pend} {last last' : Nat},
    RInv t → t.model = m → es.Pairwise (fun a b => a.txn < b.txn) → (∀ e ∈ es, ∀ k c v, vw t k = some (c, v) → v < e.txn) →
    placeLoop schema es t p last = .ok (t', p', last') → delOk (fun k => kget t.idx k ≠ none) es →
    (∀ x ∈ p, kget t.idx x.1 ≠ none) → ∀ x ∈ p', kget t'.idx x.1 ≠ none
  | [], t, t', p, p', last, last', _, _, _, _, h, _, hp => by cases h; exact hp
  | e :: es, t, t', p, p', last, last', ht, hm, hi, hv, h, hd, hp => by
    rw [List.pairwise_cons] at hi
    rw [placeLoop] at h
    by_cases hk : e.kind = .delete
    · simp only [hk] at h
      refine placeLoop_keys ht hm hi.2 (fun x hx => hv x (by simp [hx])) h (delOk_congr hd.2 ?_) ?_
      · rintro k (rfl | hk')
        · exact hd.1 hk
        · exact hk'
      · intro x hx
        rcases notePend_mem hx with hx | hx
        · exact hp x hx
        · rw [hx]; exact hd.1 hk
    · obtain ⟨t1, p1, p2, p3, p4, p4', p5⟩ := place_spec (schema := schema) ht hk (fun c v h => hv e (by simp) _ c v h)
      have h2 : placeLoop schema es t1 p (max last e.txn) = .ok (t', p', last') := by
        cases hd : e.kind with
        | delete => exact absurd hd hk
        | insert => simp only [hd, p1, Res.bind] at h; exact h
        | update => simp only [hd, p1, Res.bind] at h; exact h
      refine placeLoop_keys p2 (p3.trans hm) hi.2 ?_ h2 (delOk_congr hd.2 ?_) ?_
      · intro x hx k c v h
        rw [p5, aapply] at h
        split at h
        · have := hi.1 x hx
          cases hd : e.kind <;> simp_all <;> omega
        · exact hv x (by simp [hx]) k c v h
      · intro k hk'
        exact (place_idx ht.nodup p1 k).2 hk'
      · intro x hx
        exact (place_idx ht.nodup p1 _).2 (.inr (hp x hx))

theorem oldDrops_of : ∀ {p : Pend} {t : Tbl} (last : Nat), RInv t → (p.map (·.1)).Nodup → (∀ x ∈ p, kget t.idx x.1 ≠ none) →
    oldDrops p t = some (dropAll p t last).1
  | [], t, _, _, _, _ => rfl
  | (k, v) :: p, t, last, ht, hn, hp => by
    rw [List.map_cons, List.nodup_cons] at hn
    rw [oldDrops, dropAll]
    have hk := hp (k, v) (by simp)
    simp only at hk
    rcases ht.lookup k with ⟨h1, _⟩ | ⟨i, r, h1, h2, _⟩
    · exact absurd h1 hk
    · have e : dropOne t k v = if r.revised > v then t else { t with idx := kdel t.idx k } := by
        rw [dropOne]; simp only [h1, Option.bind_some, h2]
      simp only [h1, Option.bind_some, h2]
      rw [← e]
      refine oldDrops_of _ (Batch.dropOne_spec ht k v).1 hn.2 ?_
      intro x hx
      have hne : x.1 ≠ k := fun h => hn.1 (h ▸ List.mem_map_of_mem (f := (·.1)) hx)
      rw [e]
      split
      · exact hp x (by simp [hx])
      · simp only
        rw [kget_kdel ht.nodup, if_neg hne]
        exact hp x (by simp [hx])

/-- A batch whose records have increasing versions, later than what the table has, and that deletes only rows that are there: the
records take effect one after the other. -/
theorem oldApply_spec {t : Tbl} (ht : RInv t) {schema : Nat} {es : List Rec}
    (hi : es.Pairwise (fun a b => a.txn < b.txn)) (hv : ∀ e ∈ es, ∀ k c v, vw t k = some (c, v) → v < e.txn)
    (hd : histOk (fun k => vw t k ≠ none) es) :
    ∃ t', oldApply t ⟨schema, es⟩ = some t' ∧ RInv t' ∧ t'.model = t.model ∧ t'.queue = t.queue ∧
      (∀ r ∈ t'.heap, r ∈ t.heap ∨ ∃ e ∈ es, e.kind ≠ .delete ∧ r = rowFrom t.model schema e) ∧
      vw t' = es.foldl (aapply t.model schema) (vw t) := by
  obtain ⟨t1, p1, last1, i1, i2, i3, i4, i5, i5', i6, i7, _, i9⟩ := placeLoop_spec (schema := schema) es (p := []) 0 ht rfl
    (by simp) (List.Pairwise.imp (S := fun a b : Rec => a.key = b.key → a.txn < b.txn) (fun h _ => h) hi)
    (fun e he c v h => hv e he e.key c v h) (by simp)
  obtain ⟨j1, j2, j3, j3', j4, j5, j6⟩ := dropAll_spec p1 last1 i2 i5
  have hk := placeLoop_keys ht rfl hi hv i1 (delOk_of_hist hd (fun k hk h => by
    rcases ht.lookup k with ⟨_, h2⟩ | ⟨i, r, h1, _⟩
    · exact hk h2
    · rw [h] at h1; cases h1)) (by simp)
  refine ⟨(dropAll p1 t1 last1).1, ?_, j1, j2.trans i3, j3.trans i4, by rw [← j3'] at i5'; exact i5', ?_⟩
  · rw [oldApply, oldPlaces_of i1]
    exact oldDrops_of last1 i2 i5 hk
  · rw [j4, i6]
    congr 1

/-! ### All batches -/

/-- The records one after the other, with the schema version of their batch. -/
def foldBatches (m : Model) (A : View) (bs : List OBatch) : View :=
  bs.foldl (fun A b => b.recs.foldl (aapply m b.schema) A) A

theorem foldl_ver {m : Model} {schema : Nat} : ∀ {es : List Rec} {A : View} {k : Key} {c : List Cell} {v : Nat},
    es.foldl (aapply m schema) A k = some (c, v) → A k = some (c, v) ∨ ∃ e ∈ es, v = e.txn
  | [], _, _, _, _, h => .inl h
  | e :: es, A, k, c, v, h => by
    rw [List.foldl_cons] at h
    rcases foldl_ver h with h | ⟨x, hx, h⟩
    · rw [aapply] at h
      split at h
      · cases hk : e.kind <;> simp only [hk, Option.some.injEq, Prod.mk.injEq, reduceCtorEq] at h
        · exact .inr ⟨e, by simp, h.2.symm⟩
        · exact .inr ⟨e, by simp, h.2.symm⟩
      · exact .inl h
    · exact .inr ⟨x, by simp [hx], h⟩

theorem histOk_append : ∀ {a b : List Rec} {has : Key → Prop}, histOk has (a ++ b) → histOk has a
  | [], _, _, _ => trivial
  | e :: a, b, has, h => ⟨h.1, histOk_append h.2⟩

theorem histOk_congr {es : List Rec} {has has' : Key → Prop} (h : histOk has es) (hh : ∀ k, has k ↔ has' k) : histOk has' es := by
  have : has = has' := funext fun k => propext (hh k)
  rw [← this]; exact h

theorem histOk_rest {m : Model} {schema : Nat} : ∀ {a b : List Rec} {A : View}, histOk (fun k => A k ≠ none) (a ++ b) →
    histOk (fun k => a.foldl (aapply m schema) A k ≠ none) b
  | [], _, _, h => h
  | e :: a, b, A, h => by
    rw [List.foldl_cons]
    refine histOk_rest (histOk_congr h.2 fun k => ?_)
    rw [aapply]
    by_cases ek : k = e.key
    · simp only [ek, if_true]
      cases e.kind <;> simp
    · simp only [ek, if_false]

theorem applyBatches_spec {m : Model} : ∀ {bs : List OBatch} {t : Tbl}, RInv t → t.model = m →
    (bs.flatMap (·.recs)).Pairwise (fun a b => a.txn < b.txn) →
    (∀ e ∈ bs.flatMap (·.recs), ∀ k c v, vw t k = some (c, v) → v < e.txn) →
    histOk (fun k => vw t k ≠ none) (bs.flatMap (·.recs)) →
    ∃ t', applyBatches t bs = some t' ∧ RInv t' ∧ t'.model = m ∧ t'.queue = t.queue ∧
      (∀ r ∈ t'.heap, r ∈ t.heap ∨ ∃ b ∈ bs, ∃ e ∈ b.recs, e.kind ≠ .delete ∧ r = rowFrom m b.schema e) ∧
      vw t' = foldBatches m (vw t) bs
  | [], t, ht, hm, _, _, _ => ⟨t, rfl, ht, hm, rfl, fun r hr => .inl hr, rfl⟩
  | b :: bs, t, ht, hm, hi, hv, hd => by
    rw [List.flatMap_cons] at hi hv hd
    rw [List.pairwise_append] at hi
    obtain ⟨t1, a1, a2, a3, a4, a5, a6⟩ := oldApply_spec (schema := b.schema) ht hi.1 (fun e he => hv e (by simp [he])) (histOk_append hd)
    rw [hm] at a5 a6
    obtain ⟨t', c1, c2, c3, c4, c5, c6⟩ := applyBatches_spec (bs := bs) a2 (a3.trans hm) hi.2.1 (by
      intro e he k c v h
      rw [a6] at h
      rcases foldl_ver h with h | ⟨x, hx, rfl⟩
      · exact hv e (List.mem_append_right _ he) k c v h
      · exact hi.2.2 x hx e he) (by rw [a6]; exact histOk_rest hd)
    refine ⟨t', by rw [applyBatches, a1]; exact c1, c2, c3, c4.trans a4, ?_, ?_⟩
    · intro r hr
      rcases c5 r hr with h | ⟨x, hx, h⟩
      · rcases a5 r h with h | h
        · exact .inl h
        · exact .inr ⟨b, by simp, h⟩
      · exact .inr ⟨x, by simp [hx], h⟩
    · rw [c6, a6]; rfl

/-! ### The last record of a key -/

/-- The last record for a key. -/
def lastRec (k : Key) (es : List Rec) : Option Rec := es.reverse.find? fun e => decide (e.key = k)

theorem lastRec_cons (k : Key) (e : Rec) (es : List Rec) :
    lastRec k (e :: es) = match lastRec k es with | some x => some x | none => if e.key = k then some e else none := by
  rw [lastRec, List.reverse_cons, List.find?_append]
  change (lastRec k es).or _ = _
  cases lastRec k es with
  | some x => rfl
  | none => by_cases h : e.key = k <;> simp [h]

theorem lastRec_append (k : Key) (a b : List Rec) : lastRec k (a ++ b) = (lastRec k b).or (lastRec k a) := by
  rw [lastRec, List.reverse_append, List.find?_append]
  rfl

theorem lastRec_mem {k : Key} {es : List Rec} {e : Rec} (h : lastRec k es = some e) : e ∈ es ∧ e.key = k := by
  have h1 := List.mem_of_find?_eq_some h
  have h2 := List.find?_some h
  exact ⟨by simpa using h1, by simpa using h2⟩

/-- What a record leaves of its row. -/
def leaves (m : Model) (schema : Nat) (e : Rec) : Option (List Cell × Nat) :=
  match e.kind with
  | .delete => none
  | _ => some (placed m schema e, e.txn)

theorem foldl_last {m : Model} {schema : Nat} (k : Key) : ∀ (es : List Rec) (A : View),
    es.foldl (aapply m schema) A k = match lastRec k es with | some e => leaves m schema e | none => A k
  | [], A => rfl
  | e :: es, A => by
    rw [List.foldl_cons, foldl_last k es, lastRec_cons]
    cases lastRec k es with
    | some x => rfl
    | none =>
      simp only [aapply]
      by_cases h : e.key = k
      · rw [if_pos h.symm, if_pos h]; rfl
      · rw [if_neg (fun x => h x.symm), if_neg h]

theorem foldBatches_last {m : Model} (k : Key) {schema : Nat} : ∀ (bs : List OBatch) (A : View), (∀ b ∈ bs, b.schema = schema) →
    foldBatches m A bs k = match lastRec k (bs.flatMap (·.recs)) with | some e => leaves m schema e | none => A k
  | [], A, _ => rfl
  | b :: bs, A, hb => by
    have ih := foldBatches_last (m := m) k bs (b.recs.foldl (aapply m b.schema) A) (fun x hx => hb x (by simp [hx]))
    rw [foldBatches, List.foldl_cons]
    rw [foldBatches] at ih
    rw [ih, List.flatMap_cons, lastRec_append, foldl_last, hb b (by simp)]
    cases lastRec k (bs.flatMap (·.recs)) with
    | some x => rfl
    | none => rfl

/-! ### Models whose columns were not changed -/

theorem zipCells_get {m : Model} (hm : Batch.MOk m) {cs : List Cell} (hl : cs.length = (others m).length) {j : Nat} {name : String}
    (h : (others m)[j]? = some name) : zipCells (others m) cs name = cs[j]? := by
  have h1 := (Batch.zip_foldl hm.others_nodup cs (fun _ => none) (by simp) hl.symm).1
  have h2 := congrArg (·[j]?) h1
  simp only [List.getElem?_map, h, Option.map_some] at h2
  have : cs[j]? = some (cs[j]'(by have := (List.getElem?_eq_some_iff.1 h).1; omega)) := by simp
  rw [this] at h2 ⊢
  simpa [zipCells] using h2

theorem rowFrom_plain {m : Model} (hd : m.deltas = []) (e : Rec) : rowFrom m 0 e = ⟨e.key, zipCells (others m) e.cells, 0, e.txn⟩ := by
  rw [rowFrom, Batch.resolve_late _ _ (by simp [hd])]

end Verif.Old
