import Verif.Batch.Restore
/-!
A table and the table that the file would be restored to: what keeps them together.
-/
namespace Verif.Batch
open Verif.Gns (SDelta Model upd fget ModelOk PkNonNull)
open Verif.Dml (Key Cells RowObj DKind Delta Tbl kget kdel resolve setRow colNames cput kget_append kget_kdel kget_none
  kget_mem kdel_sublist applySchema FloatOps Stmt Asn Where execInsert execDelete execUpdate execSelect execSelectAll
  exec run updLoop allLoop InsData prepareInsert resolveWhere)
open Verif.Journal (SErr)

/-! ### Models -/

/-- What is used of a model: the columns have distinct names, the primary key is one of them and has a type
that can be one, and it was never added by ALTER. -/
structure MOk (m : Model) : Prop where
  nodup : (colNames m.fields).Nodup
  pk : m.pk ∈ colNames m.fields
  uniq : m.pkTag.uniq ≠ .illegal
  notAdded : SDelta.add m.pk ∉ m.deltas

theorem filter_ne_length {l : List String} {x : String} (hn : l.Nodup) (hx : x ∈ l) :
    (l.filter fun k => decide (k ≠ x)).length + 1 = l.length := by
  induction l with
  | nil => cases hx
  | cons a l ih =>
    rw [List.nodup_cons] at hn
    by_cases e : a = x
    · subst e
      have : (l.filter fun k => decide (k ≠ a)) = l := by
        rw [List.filter_eq_self]
        intro b hb
        simp only [ne_eq, decide_not, Bool.not_eq_eq_eq_not, Bool.not_true, decide_eq_false_iff_not]
        rintro rfl
        exact hn.1 hb
      rw [List.filter_cons]
      simp only [ne_eq, not_true_eq_false, decide_false, Bool.false_eq_true, if_false, List.length_cons]
      simp only [ne_eq] at this
      rw [this]
    · have hx' : x ∈ l := by
        rcases List.mem_cons.1 hx with h | h
        · exact absurd h.symm e
        · exact h
      rw [List.filter_cons]
      simp only [ne_eq, e, not_false_eq_true, decide_true, if_true, List.length_cons]
      have := ih hn.2 hx'
      simp only [ne_eq] at this
      omega

theorem MOk.others_length {m : Model} (h : MOk m) : (others m).length = m.fields.length - 1 := by
  have := filter_ne_length h.nodup h.pk
  simp only [others]
  simp only [colNames, List.length_map] at this ⊢
  omega

theorem MOk.others_nodup {m : Model} (h : MOk m) : (others m).Nodup := h.nodup.sublist List.filter_sublist

/-- Without a cell for the primary key, the cells written are those of the other columns. -/
theorem rowCells_eq {m : Model} {c : Cells} (hc : c m.pk = none) :
    rowCells m.pk m.fields c = (others m).map fun k => (c k).getD .null := by
  simp only [rowCells, others]
  induction colNames m.fields with
  | nil => rfl
  | cons k ks ih =>
    rw [List.filterMap_cons, List.filter_cons]
    by_cases e : k = m.pk
    · subst e
      simp only [hc, if_true, ne_eq, not_true_eq_false, decide_false, Bool.false_eq_true, if_false]
      exact ih
    · simp only [e, if_false, ne_eq, not_false_eq_true, decide_true, if_true, List.map_cons]
      cases c k with
      | none => simp only [Option.getD_none]; rw [ih]
      | some x => simp only [Option.getD_some]; rw [ih]

theorem zip_foldl {ks : List String} (hn : ks.Nodup) : ∀ (cs : List Cell) (c : Cells), (∀ k ∈ ks, c k = none) →
    ks.length = cs.length →
    ks.map ((ks.zip cs).foldl (fun c e => (cput c e.1 e.2).1) c) = cs.map some ∧
      ∀ x, x ∉ ks → (ks.zip cs).foldl (fun c e => (cput c e.1 e.2).1) c x = c x := by
  induction ks with
  | nil =>
    intro cs c _ hl
    cases cs with
    | nil => simp
    | cons _ _ => simp at hl
  | cons k ks ih =>
    intro cs c hc hl
    rw [List.nodup_cons] at hn
    cases cs with
    | nil => simp at hl
    | cons d cs =>
      have hk : c k = none := hc k (by simp)
      have hput : (cput c k d).1 = upd c k (some d) := by rw [cput, hk]
      obtain ⟨i1, i2⟩ := ih hn.2 cs (upd c k (some d)) (by
        intro x hx
        have : x ≠ k := by rintro rfl; exact hn.1 hx
        simp only [upd, this, if_false]
        exact hc x (by simp [hx])) (by simpa using hl)
      simp only [List.zip_cons_cons, List.foldl_cons, hput, List.map_cons]
      refine ⟨?_, ?_⟩
      · rw [i1, i2 k hn.1]
        simp [upd]
      · intro x hx
        simp only [List.mem_cons, not_or] at hx
        rw [i2 x hx.2]
        simp [upd, hx.1]

/-- Putting cells into a row and writing it gives the cells back. -/
theorem rowCells_zip {m : Model} (hm : MOk m) {cs : List Cell} (hl : cs.length = (others m).length) :
    rowCells m.pk m.fields (zipCells (others m) cs) = cs := by
  obtain ⟨h1, h2⟩ := zip_foldl hm.others_nodup cs (fun _ => none) (by simp) hl.symm
  have hpk : zipCells (others m) cs m.pk = none := h2 m.pk (by simp [others])
  rw [rowCells_eq hpk]
  have : (others m).map (fun k => (zipCells (others m) cs k).getD .null)
      = ((others m).map (zipCells (others m) cs)).map (·.getD .null) := by simp
  rw [this]
  simp only [zipCells]
  rw [h1, List.map_map]
  exact List.map_id cs

/-- A record of the current schema leaves the cells that it has. -/
theorem placed_eq {m : Model} (hm : MOk m) {e : Rec} (hl : e.cells.length = (others m).length) :
    placed m m.deltas.length e = e.cells := by
  rw [placed, rowList, resolve_late _ _ (by simp)]
  exact rowCells_zip hm hl

/-! ### Tables -/

/-- The effect of one pending change on the restored rows, if it was written now. -/
def adelta (t : Tbl) (A : View) (d : Delta) : View :=
  match t.heap[d.row]? with
  | none => A
  | some r =>
    match d.kind with
    | .delete => fun k => if k = r.key then none else A k
    | _ => if r.revised ≤ d.ver then fun k => if k = r.key then some (rowList t.model r, d.ver) else A k else A

/-- The invariant of a table with pending changes. -/
structure LInv (t : Tbl) : Prop where
  r : RInv t
  qvalid : ∀ d ∈ t.queue, d.row < t.heap.length
  sorted : t.queue.Pairwise fun a b => a.ver < b.ver
  qver : ∀ d ∈ t.queue, d.ver < t.ver
  rver : ∀ r ∈ t.heap, r.revised < t.ver
  last : ∀ d, t.queue.getLast? = some d → ∀ r ∈ t.heap, r.revised ≤ d.ver
  pkc : ∀ r ∈ t.heap, r.cells t.model.pk = none
  legal : ∀ r ∈ t.heap, r.key.uniq = t.model.pkTag.uniq

/-- The table `t`, and the table `R` that the batches written so far are restored to: writing what is
pending makes them agree. -/
structure Sync (t R : Tbl) : Prop where
  mok : MOk t.model
  model : R.model = t.model
  live : LInv t
  rest : RInv R
  rq : R.queue = []
  low : ∀ r ∈ R.heap, r.revised < t.ver ∧ ∀ d ∈ t.queue, r.revised < d.ver
  rver : t.queue = [] → ∀ r ∈ R.heap, r.revised < R.ver
  rpkc : ∀ r ∈ R.heap, r.cells R.model.pk = none
  rlegal : ∀ r ∈ R.heap, r.key.uniq = R.model.pkTag.uniq
  eq : t.queue.foldl (adelta t) (vw R) = vw t

/-- Rows that cannot be told apart by the writer. -/
def RowEqv (m : Model) (r s : RowObj) : Prop :=
  r.key = s.key ∧ r.revised = s.revised ∧ rowList m r = rowList m s

theorem fold_agree {t u : Tbl} (hmod : t.model = u.model) (P : Key → Prop) : ∀ (q : List Delta) {A B : View},
    (∀ k, P k → A k = B k) →
    (∀ d ∈ q, ∃ r s, t.heap[d.row]? = some r ∧ u.heap[d.row]? = some s ∧ r.key = s.key ∧
      (P r.key → RowEqv t.model r s)) →
    ∀ k, P k → q.foldl (adelta t) A k = q.foldl (adelta u) B k
  | [], A, B, hA, _ => hA
  | d :: q, A, B, hA, hq => by
    rw [List.foldl_cons, List.foldl_cons]
    refine fold_agree hmod P q ?_ (fun x hx => hq x (by simp [hx]))
    intro k hk
    obtain ⟨r, s, h1, h2, h3, h4⟩ := hq d (by simp)
    simp only [adelta, h1, h2]
    by_cases e : k = r.key
    · subst e
      obtain ⟨_, e2, e3⟩ := h4 hk
      have := hA _ hk
      rw [← hmod]
      cases d.kind with
      | delete => simp [h3]
      | insert =>
        simp only [e2]
        split
        · simp [h3, e3]
        · exact this
      | update =>
        simp only [e2]
        split
        · simp [h3, e3]
        · exact this
    · have e' : ¬ k = s.key := by rw [← h3]; exact e
      have := hA _ hk
      cases d.kind with
      | delete => simp [e, e', this]
      | insert => simp only; split <;> split <;> simp [e, e', this]
      | update => simp only; split <;> split <;> simp [e, e', this]

/-- The rows of `u` are those of `t`, some of them brought up to the current schema. -/
structure Lazy (t u : Tbl) : Prop where
  model : u.model = t.model
  idx : u.idx = t.idx
  ver : u.ver = t.ver
  queue : u.queue = t.queue
  heap : ∀ i : Nat, u.heap[i]? = t.heap[i]? ∨ u.heap[i]? = (t.heap[i]?).map (resolve t.model.deltas)

theorem Lazy.refl (t : Tbl) : Lazy t t := ⟨rfl, rfl, rfl, rfl, fun _ => .inl rfl⟩

theorem Lazy.trans {t u v : Tbl} (h : Lazy t u) (g : Lazy u v) : Lazy t v := by
  refine ⟨g.model.trans h.model, g.idx.trans h.idx, g.ver.trans h.ver, g.queue.trans h.queue, fun i => ?_⟩
  rcases g.heap i with e | e <;> rcases h.heap i with f | f
  · exact .inl (e.trans f)
  · exact .inr (e.trans f)
  · rw [h.model, f] at e; exact .inr e
  · rw [h.model, f] at e
    refine .inr ?_
    rw [e]
    cases t.heap[i]? with
    | none => rfl
    | some r => simp [resolve_idem]

theorem Lazy.setRow {t : Tbl} {i : Nat} {r : RowObj} (h : t.heap[i]? = some r) :
    Lazy t (setRow t i (resolve t.model.deltas r)) := by
  refine ⟨rfl, rfl, rfl, rfl, fun j => ?_⟩
  simp only [Dml.setRow]
  rw [List.getElem?_set]
  by_cases e : i = j
  · subst e
    have := (List.getElem?_eq_some_iff.1 h).1
    rw [if_pos rfl, if_pos this, h]
    exact .inr rfl
  · simp [e]

/-- Row by row. -/
theorem Lazy.row {t u : Tbl} (h : Lazy t u) {i : Nat} {s : RowObj} (hs : u.heap[i]? = some s) :
    ∃ r, t.heap[i]? = some r ∧ RowEqv t.model r s ∧ (s = r ∨ s = resolve t.model.deltas r) := by
  rcases h.heap i with e | e
  · exact ⟨s, by rw [← e]; exact hs, ⟨rfl, rfl, rfl⟩, .inl rfl⟩
  · rw [hs] at e
    cases hr : t.heap[i]? with
    | none => rw [hr] at e; cases e
    | some r =>
      rw [hr] at e
      simp only [Option.map_some, Option.some.injEq] at e
      subst e
      exact ⟨r, rfl, ⟨(resolve_key _ _).1.symm, (resolve_key _ _).2.symm, (rowList_resolve _ _).symm⟩, .inr rfl⟩

theorem Lazy.row' {t u : Tbl} (h : Lazy t u) {i : Nat} {r : RowObj} (hr : t.heap[i]? = some r) :
    ∃ s, u.heap[i]? = some s ∧ RowEqv t.model r s := by
  rcases h.heap i with e | e
  · exact ⟨r, by rw [e]; exact hr, ⟨rfl, rfl, rfl⟩⟩
  · rw [hr] at e
    exact ⟨_, e, ⟨(resolve_key _ _).1.symm, (resolve_key _ _).2.symm, (rowList_resolve _ _).symm⟩⟩

theorem Lazy.length {t u : Tbl} (h : Lazy t u) : u.heap.length = t.heap.length := by
  have key : ∀ i : Nat, u.heap[i]? = none ↔ t.heap[i]? = none := by
    intro i
    rcases h.heap i with e | e <;> rw [e]
    cases t.heap[i]? <;> simp
  have h1 := (key t.heap.length).2 (by simp)
  have h2 := (key u.heap.length).1 (by simp)
  simp only [List.getElem?_eq_none_iff] at h1 h2
  omega

theorem Lazy.vw {t u : Tbl} (h : Lazy t u) : vw u = vw t := by
  funext k
  simp only [Batch.vw, h.idx, h.model]
  cases kget t.idx k with
  | none => rfl
  | some i =>
    simp only [Option.bind_some]
    cases hr : t.heap[i]? with
    | none =>
      rcases h.heap i with e | e <;> rw [e, hr] <;> rfl
    | some r =>
      obtain ⟨s, h1, h2, h3, h4⟩ := h.row' hr
      simp [h1, h3, h4]

/-- Applying schema changes to a row that has no cell for `pk`. -/
theorem fold_none {pk : String} : ∀ (ds : List SDelta) (c : Cells), SDelta.add pk ∉ ds → c pk = none →
    ds.foldl applySchema c pk = none
  | [], _, _, hc => hc
  | d :: ds, c, hd, hc => by
    simp only [List.mem_cons, not_or] at hd
    rw [List.foldl_cons]
    refine fold_none ds _ hd.2 ?_
    cases d with
    | add k =>
      have : ¬ pk = k := fun h => hd.1 (by rw [h])
      rw [applySchema]
      cases c k with
      | none => simp [upd, this, hc]
      | some x => exact hc
    | rem k =>
      simp only [applySchema, upd]
      split
      · rfl
      · exact hc

theorem resolve_pkc {ds : List SDelta} {pk : String} {r : RowObj} (hd : SDelta.add pk ∉ ds) (hc : r.cells pk = none) :
    (resolve ds r).cells pk = none := by
  rw [resolve]
  split
  · exact hc
  · split
    · exact hc
    · rename_i d l h
      simp only
      refine fold_none _ _ ?_ hc
      rw [← h]
      intro hm
      exact hd (List.mem_of_mem_drop hm)

theorem LInv.lazy {t u : Tbl} (hm : MOk t.model) (h : LInv t) (g : Lazy t u) : LInv u := by
  have hrow : ∀ s ∈ u.heap, ∃ r ∈ t.heap, RowEqv t.model r s ∧ (s = r ∨ s = resolve t.model.deltas r) := by
    intro s hs
    obtain ⟨i, hi⟩ := List.mem_iff_getElem?.1 hs
    obtain ⟨r, h1, h2, h3⟩ := g.row hi
    exact ⟨r, List.mem_of_getElem? h1, h2, h3⟩
  refine ⟨⟨by rw [g.idx]; exact h.r.nodup, ?_⟩, ?_, ?_, ?_, ?_, ?_, ?_, ?_⟩
  · intro e he
    rw [g.idx] at he
    obtain ⟨r, h1, h2⟩ := h.r.valid e he
    obtain ⟨s, h3, h4, _⟩ := g.row' h1
    exact ⟨s, h3, h4.symm.trans h2⟩
  · rw [g.queue, g.length]; exact h.qvalid
  · rw [g.queue]; exact h.sorted
  · rw [g.queue, g.ver]; exact h.qver
  · intro s hs
    obtain ⟨r, h1, h2, _⟩ := hrow s hs
    rw [g.ver, ← h2.2.1]; exact h.rver r h1
  · intro d hd s hs
    obtain ⟨r, h1, h2, _⟩ := hrow s hs
    rw [g.queue] at hd
    rw [← h2.2.1]; exact h.last d hd r h1
  · intro s hs
    obtain ⟨r, h1, _, h3⟩ := hrow s hs
    rw [g.model]
    rcases h3 with rfl | rfl
    · exact h.pkc s h1
    · exact resolve_pkc hm.notAdded (h.pkc r h1)
  · intro s hs
    obtain ⟨r, h1, h2, _⟩ := hrow s hs
    rw [g.model, ← h2.1]; exact h.legal r h1

theorem Lazy.fold {t u : Tbl} (g : Lazy t u) {q : List Delta} (hq : ∀ d ∈ q, d.row < t.heap.length) (A : View) :
    q.foldl (adelta u) A = q.foldl (adelta t) A := by
  funext k
  refine (fold_agree (t := t) (u := u) g.model.symm (fun _ => True) q (A := A) (B := A) (fun _ _ => rfl) ?_ k trivial).symm
  intro d hd
  have hr := List.getElem?_eq_getElem (hq d hd)
  obtain ⟨s, h1, h2⟩ := g.row' hr
  exact ⟨_, s, hr, h1, h2.1, fun _ => h2⟩

theorem Sync.lazy {t u R : Tbl} (h : Sync t R) (g : Lazy t u) : Sync u R where
  mok := by rw [g.model]; exact h.mok
  model := by rw [g.model]; exact h.model
  live := h.live.lazy h.mok g
  rest := h.rest
  rq := h.rq
  low := by rw [g.ver, g.queue]; exact h.low
  rver := by rw [g.queue]; exact h.rver
  rpkc := h.rpkc
  rlegal := h.rlegal
  eq := by rw [g.queue, g.vw, g.fold h.live.qvalid]; exact h.eq

end Verif.Batch
