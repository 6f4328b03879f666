import Verif.Batch.SyncStmt
/-!
Writing pending changes keeps a table in step with its file.
-/
namespace Verif.Batch
open Verif.Gns (SDelta Model upd fget ModelOk PkNonNull)
open Verif.Dml (Key Cells RowObj DKind Delta Tbl kget kdel resolve setRow colNames cput kget_append kget_kdel kget_none
  kget_mem kdel_sublist applySchema)
open Verif.Journal (SErr)

/-- The records that writing `n` pending changes produces, and the table afterwards: `batchLoop` without the
bytes. -/
def drain : Nat → Tbl → Tbl × List Rec
  | 0, t => (t, [])
  | n + 1, t =>
    match t.queue with
    | [] => (t, [])
    | d :: ds =>
      match stepRec { t with queue := ds } d with
      | (t, none) => drain n t
      | (t, some e) => ((drain n t).1, e :: (drain n t).2)

/-- What a record of the model `m` looks like; `P` is for the values. -/
structure RecOk (m : Model) (P : Cell → Prop) (e : Rec) : Prop where
  key : e.key.uniq = m.pkTag.uniq
  del : e.kind = .delete → e.cells = []
  len : e.kind ≠ .delete → e.cells.length = (others m).length
  vals : ∀ c ∈ e.cells, P c

/-- All values in the rows. -/
def Vals (P : Cell → Prop) (t : Tbl) : Prop := ∀ r ∈ t.heap, ∀ k c, r.cells k = some c → P c

theorem fold_vals {P : Cell → Prop} (hP : P .null) : ∀ (ds : List SDelta) (c : Cells), (∀ k x, c k = some x → P x) →
    ∀ k x, ds.foldl applySchema c k = some x → P x
  | [], _, hc => hc
  | d :: ds, c, hc => by
    rw [List.foldl_cons]
    refine fold_vals hP ds _ ?_
    intro k x hx
    cases d with
    | add j =>
      rw [applySchema] at hx
      cases hj : c j with
      | none =>
        rw [hj] at hx
        simp only [upd] at hx
        split at hx
        · cases hx; exact hP
        · exact hc k x hx
      | some y => rw [hj] at hx; exact hc k x hx
    | rem j =>
      simp only [applySchema, upd] at hx
      split at hx
      · cases hx
      · exact hc k x hx

theorem resolve_vals {P : Cell → Prop} (hP : P .null) {ds : List SDelta} {r : RowObj}
    (h : ∀ k x, r.cells k = some x → P x) : ∀ k x, (resolve ds r).cells k = some x → P x := by
  rw [resolve]
  split
  · exact h
  · split
    · exact h
    · exact fold_vals hP _ _ h

theorem Vals.lazy {P : Cell → Prop} (hP : P .null) {t u : Tbl} (h : Vals P t) (g : Lazy t u) : Vals P u := by
  intro s hs
  obtain ⟨i, hi⟩ := List.mem_iff_getElem?.1 hs
  obtain ⟨r, h1, _, h3⟩ := g.row hi
  have := h r (List.mem_of_getElem? h1)
  rcases h3 with rfl | rfl
  · exact this
  · exact resolve_vals hP this

theorem LInv.tail {t : Tbl} (h : LInv t) {d : Delta} {ds : List Delta} (hq : t.queue = d :: ds) :
    LInv { t with queue := ds } where
  r := ⟨h.r.nodup, h.r.valid⟩
  qvalid := fun x hx => h.qvalid x (by rw [hq]; simp [hx])
  sorted := by have := h.sorted; rw [hq] at this; exact this.tail
  qver := fun x hx => h.qver x (by rw [hq]; simp [hx])
  rver := h.rver
  last := by
    intro x hx
    refine h.last x ?_
    rw [hq, List.getLast?_cons]
    simp only at hx
    rw [hx]
    rfl
  pkc := h.pkc
  legal := h.legal

/-- One pending change. -/
theorem stepRec_spec {t : Tbl} (hm : MOk t.model) {P : Cell → Prop} (hP : P .null) (hv : Vals P t)
    (hpkc : ∀ r ∈ t.heap, r.cells t.model.pk = none) (hlegal : ∀ r ∈ t.heap, r.key.uniq = t.model.pkTag.uniq)
    {d : Delta} (hd : d.row < t.heap.length) :
    Lazy t (stepRec t d).1 ∧
    (∀ A, (stepRec t d).2 = none → adelta t A d = A) ∧
    (∀ e, (stepRec t d).2 = some e → RecOk t.model P e ∧ e.txn = d.ver ∧
      ∀ A, aapply t.model t.model.deltas.length A e = adelta t A d) ∧
    ((∀ r ∈ t.heap, r.revised ≤ d.ver) → (stepRec t d).2 ≠ none) := by
  have hr := List.getElem?_eq_getElem hd
  generalize t.heap[d.row] = r at hr
  have hmem := List.mem_of_getElem? hr
  have hup : d.kind ≠ .delete → r.revised ≤ d.ver →
      RecOk t.model P ⟨d.kind, d.ver, r.key, rowCells t.model.pk t.model.fields (resolve t.model.deltas r).cells⟩ := by
    intro hk _
    have hc := resolve_pkc hm.notAdded (hpkc r hmem)
    refine ⟨hlegal r hmem, fun h => absurd h hk, fun _ => ?_, ?_⟩
    · simp only; rw [rowCells_eq hc]; simp
    · simp only
      rw [rowCells_eq hc]
      intro x hx
      simp only [List.mem_map] at hx
      obtain ⟨k, _, rfl⟩ := hx
      cases h : (resolve t.model.deltas r).cells k with
      | none => exact hP
      | some y => exact resolve_vals hP (hv r hmem) k y h
  have happ : ∀ A, d.kind ≠ .delete → r.revised ≤ d.ver →
      aapply t.model t.model.deltas.length A
        ⟨d.kind, d.ver, r.key, rowCells t.model.pk t.model.fields (resolve t.model.deltas r).cells⟩ = adelta t A d := by
    intro A hk hle
    have hpl := placed_eq (m := t.model) hm ((hup hk hle).len hk)
    funext k
    simp only [aapply, adelta, hr]
    cases hkk : d.kind with
    | delete => exact absurd hkk hk
    | insert =>
      rw [hkk] at hpl
      simp only [hle, if_true, hpl]
      rfl
    | update =>
      rw [hkk] at hpl
      simp only [hle, if_true, hpl]
      rfl
  rw [stepRec]
  simp only [hr]
  cases hk : d.kind with
  | delete =>
    refine ⟨.refl t, by simp, ?_, by simp⟩
    simp only [Option.some.injEq]
    rintro e rfl
    refine ⟨⟨hlegal r hmem, fun _ => rfl, fun h => absurd rfl h, by simp⟩, rfl, fun A => ?_⟩
    funext k
    simp only [aapply, adelta, hr, hk]
  | insert =>
    simp only
    by_cases hle : r.revised ≤ d.ver
    · rw [if_pos hle]
      refine ⟨Lazy.setRow hr, by simp, ?_, by simp⟩
      simp only [Option.some.injEq]
      rintro e rfl
      have h1 := hup (by simp [hk]) hle
      have h2 := fun A => happ A (by simp [hk]) hle
      rw [hk] at h1
      simp only [hk] at h2
      exact ⟨h1, rfl, h2⟩
    · rw [if_neg hle]
      refine ⟨.refl t, ?_, by simp, fun h => absurd (h r hmem) hle⟩
      intro A _
      simp only [adelta, hr, hk, if_neg hle]
  | update =>
    simp only
    by_cases hle : r.revised ≤ d.ver
    · rw [if_pos hle]
      refine ⟨Lazy.setRow hr, by simp, ?_, by simp⟩
      simp only [Option.some.injEq]
      rintro e rfl
      have h1 := hup (by simp [hk]) hle
      have h2 := fun A => happ A (by simp [hk]) hle
      rw [hk] at h1
      simp only [hk] at h2
      exact ⟨h1, rfl, h2⟩
    · rw [if_neg hle]
      refine ⟨.refl t, ?_, by simp, fun h => absurd (h r hmem) hle⟩
      intro A _
      simp only [adelta, hr, hk, if_neg hle]

theorem drain_spec {P : Cell → Prop} (hP : P .null) : ∀ (n : Nat) {t : Tbl}, MOk t.model → LInv t → Vals P t →
    n ≤ t.queue.length →
    Lazy { t with queue := t.queue.drop n } (drain n t).1 ∧
    (∀ e ∈ (drain n t).2, RecOk t.model P e) ∧
    ((drain n t).2.map (·.txn)).Sublist ((t.queue.take n).map (·.ver)) ∧
    (∀ A, (drain n t).2.foldl (aapply t.model t.model.deltas.length) A = (t.queue.take n).foldl (adelta t) A) ∧
    (∀ d ∈ t.queue.take n, (∀ r ∈ t.heap, r.revised ≤ d.ver) → ∃ e ∈ (drain n t).2, e.txn = d.ver)
  | 0, t, _, _, _, _ => by
    simp only [drain, List.drop_zero, List.take_zero]
    exact ⟨.refl t, by simp, by simp, by simp, by simp⟩
  | n + 1, t, hm, hl, hv, hn => by
    cases hq : t.queue with
    | nil => rw [hq] at hn; simp at hn
    | cons d ds =>
      have hl1 := hl.tail hq
      have hrow : d.row < t.heap.length := hl.qvalid d (by rw [hq]; simp)
      obtain ⟨s1, s2, s3, s4⟩ := stepRec_spec (t := { t with queue := ds }) hm hP hv hl.pkc hl.legal hrow
      rw [hq] at hn
      rw [drain]
      simp only [hq]
      generalize hst : stepRec { t with queue := ds } d = st at s1 s2 s3 s4
      obtain ⟨u, o⟩ := st
      simp only at s1 s2 s3 s4
      have hmod : u.model = t.model := s1.model
      have huq : u.queue = ds := s1.queue
      have hlu := hl1.lazy (by exact hm) s1
      have hvu : Vals P u := Vals.lazy (t := { t with queue := ds }) hP hv s1
      obtain ⟨i1, i2, i3, i4, i5⟩ := drain_spec hP n (t := u) (by rw [hmod]; exact hm) hlu hvu
        (by rw [huq]; simpa using hn)
      have hfold : ∀ A, (u.queue.take n).foldl (adelta u) A = (ds.take n).foldl (adelta t) A := by
        intro A
        rw [huq]
        refine (s1.fold (q := ds.take n) (fun x hx => ?_) A)
        exact hl1.qvalid x (List.mem_of_mem_take hx)
      have hlazy : Lazy { t with queue := (d :: ds).drop (n + 1) } { u with queue := u.queue.drop n } := by
        refine ⟨s1.model, s1.idx, s1.ver, ?_, s1.heap⟩
        simp only [huq, List.drop_succ_cons]
      rw [hmod] at i2 i4
      simp only [hfold] at i4
      have hsmall : ∀ x : Delta, (∀ r ∈ t.heap, r.revised ≤ x.ver) → ∀ r ∈ u.heap, r.revised ≤ x.ver := by
        intro x hx s hs
        obtain ⟨i, hi⟩ := List.mem_iff_getElem?.1 hs
        obtain ⟨r, h1, h2, _⟩ := s1.row hi
        rw [← h2.2.1]
        exact hx r (List.mem_of_getElem? h1)
      have hi5 : ∀ x ∈ ds.take n, (∀ r ∈ t.heap, r.revised ≤ x.ver) → ∃ e ∈ (drain n u).2, e.txn = x.ver := by
        intro x hx hr
        exact i5 x (by rw [huq]; exact hx) (hsmall x hr)
      rw [huq] at i3
      cases o with
      | none =>
        simp only [List.take_succ_cons, List.map_cons, List.foldl_cons]
        refine ⟨hlazy.trans i1, i2, i3.cons _, ?_, ?_⟩
        · intro A
          rw [i4]
          congr 1
          exact (s2 A rfl).symm
        · intro x hx hr
          simp only [List.mem_cons] at hx
          rcases hx with rfl | hx
          · exact absurd rfl (s4 hr)
          · exact hi5 x hx hr
      | some e =>
        obtain ⟨j1, j2, j3⟩ := s3 e rfl
        simp only [List.take_succ_cons, List.map_cons, List.foldl_cons]
        refine ⟨hlazy.trans i1, ?_, ?_, ?_, ?_⟩
        · intro x hx
          simp only [List.mem_cons] at hx
          rcases hx with rfl | hx
          · exact j1
          · exact i2 x hx
        · rw [j2]; exact i3.cons_cons _
        · intro A
          rw [i4]
          congr 1
          exact j3 A
        · intro x hx hr
          simp only [List.mem_cons] at hx
          rcases hx with rfl | hx
          · exact ⟨e, by simp, j2⟩
          · obtain ⟨y, h1, h2⟩ := hi5 x hx hr
            exact ⟨y, by simp [h1], h2⟩

theorem zip_none {pk : String} : ∀ (l : List (String × Cell)) (c : Cells), pk ∉ l.map (·.1) → c pk = none →
    l.foldl (fun c e => (cput c e.1 e.2).1) c pk = none
  | [], _, _, hc => hc
  | e :: l, c, hl, hc => by
    simp only [List.map_cons, List.mem_cons, not_or] at hl
    rw [List.foldl_cons]
    refine zip_none l _ hl.2 ?_
    rw [cput]
    cases c e.1 with
    | none => simp [upd, hl.1, hc]
    | some _ => exact hc

theorem rowFrom_pkc {m : Model} (hm : MOk m) (schema : Nat) (e : Rec) : (rowFrom m schema e).cells m.pk = none := by
  refine resolve_pkc hm.notAdded ?_
  refine zip_none _ _ ?_ rfl
  intro h
  simp only [List.mem_map] at h
  obtain ⟨x, h1, h2⟩ := h
  have := (List.of_mem_zip h1).1
  rw [h2] at this
  simp [others] at this

/-- Writing `n` pending changes: the batch is restored without a failing assertion, and the two tables stay
in step. -/
theorem Sync.flush {P : Cell → Prop} (hP : P .null) {t R : Tbl} (h : Sync t R) (hv : Vals P t) {n : Nat}
    (hn : n ≤ t.queue.length) (hpos : 0 < n) :
    ∃ R', finish R ⟨t.model.deltas.length, (drain n t).2⟩ = .ok R' ∧ Sync (drain n t).1 R' ∧
      ∀ r ∈ R'.heap, r ∈ R.heap ∨
        ∃ e ∈ (drain n t).2, e.kind ≠ .delete ∧ r = rowFrom t.model t.model.deltas.length e := by
  obtain ⟨d1, d2, d3, d4, d5⟩ := drain_spec hP n h.mok h.live hv hn
  have hl := h.live
  have htx : ∀ e ∈ (drain n t).2, ∃ d ∈ t.queue.take n, e.txn = d.ver := by
    intro e he
    have := d3.subset (List.mem_map_of_mem (f := (·.txn)) he)
    simp only [List.mem_map] at this
    obtain ⟨d, h1, h2⟩ := this
    exact ⟨d, h1, h2.symm⟩
  have hpw : (drain n t).2.Pairwise (fun a b => a.txn < b.txn) := by
    have h1 : ((t.queue.take n).map (·.ver)).Pairwise (· < ·) := by
      rw [List.pairwise_map]; exact hl.sorted.sublist (List.take_sublist n _)
    have := h1.sublist d3
    rw [List.pairwise_map] at this
    exact this
  have hvR : ∀ e ∈ (drain n t).2, ∀ k c v, vw R k = some (c, v) → v < e.txn := by
    intro e he k c v hk
    obtain ⟨d, h1, h2⟩ := htx e he
    rcases h.rest.lookup k with ⟨_, h3⟩ | ⟨i, r, _, h4, h3⟩
    · rw [h3] at hk; cases hk
    · rw [h3] at hk
      cases hk
      rw [h2]
      exact (h.low r (List.mem_of_getElem? h4)).2 d (List.mem_of_mem_take h1)
  obtain ⟨R', r1, r2, r3, r4, r5, r6, r7⟩ := finish_spec h.rest (schema := t.model.deltas.length) hpw hvR
  have hsp : t.queue.take n ++ t.queue.drop n = t.queue := List.take_append_drop n _
  have hcross : ∀ a ∈ t.queue.take n, ∀ b ∈ t.queue.drop n, a.ver < b.ver := by
    have := hl.sorted
    rw [← hsp, List.pairwise_append] at this
    exact this.2.2
  have hm : (drain n t).1.model = t.model := d1.model
  have hq : (drain n t).1.queue = t.queue.drop n := d1.queue
  have hvn : (drain n t).1.ver = t.ver := d1.ver
  rw [h.model] at r5 r6
  have hl' : LInv { t with queue := t.queue.drop n } := by
    refine ⟨⟨hl.r.nodup, hl.r.valid⟩, fun x hx => hl.qvalid x (List.mem_of_mem_drop hx),
      hl.sorted.sublist (List.drop_sublist n _), fun x hx => hl.qver x (List.mem_of_mem_drop hx), hl.rver, ?_, hl.pkc,
      hl.legal⟩
    intro d hd
    refine hl.last d ?_
    rw [← hsp, List.getLast?_append]
    simp only at hd
    rw [hd]
    rfl
  refine ⟨R', r1, ⟨by rw [hm]; exact h.mok, by rw [hm, r3]; exact h.model, hl'.lazy (by exact h.mok) d1, r2, by rw [r4]; exact h.rq,
    ?_, ?_, ?_, ?_, ?_⟩, r5⟩
  · intro r hr
    rw [hvn, hq]
    rcases r5 r hr with hr | ⟨e, he, _, rfl⟩
    · exact ⟨(h.low r hr).1, fun d hd => (h.low r hr).2 d (List.mem_of_mem_drop hd)⟩
    · have hrev : (rowFrom t.model t.model.deltas.length e).revised = e.txn := (resolve_key _ _).2
      obtain ⟨d, h1, h2⟩ := htx e he
      rw [hrev, h2]
      exact ⟨hl.qver d (List.mem_of_mem_take h1), fun x hx => hcross d h1 x hx⟩
  · intro hnil r hr
    rw [hq] at hnil
    rcases r5 r hr with hr | ⟨e, he, _, rfl⟩
    · have hne : t.queue ≠ [] := by intro h0; rw [h0] at hn; simp at hn; omega
      obtain ⟨d, hd⟩ : ∃ d, t.queue.getLast? = some d := by
        cases hx : t.queue.getLast? with
        | none => exact absurd (List.getLast?_eq_none_iff.1 hx) hne
        | some d => exact ⟨d, rfl⟩
      have hmem := List.mem_of_getLast? hd
      have htake : t.queue.take n = t.queue := by rw [hnil, List.append_nil] at hsp; exact hsp
      obtain ⟨e, he, heq⟩ := d5 d (by rw [htake]; exact hmem) (hl.last d hd)
      have h1 := r7 e he
      have h2 := (h.low r hr).2 d hmem
      omega
    · have hrev : (rowFrom t.model t.model.deltas.length e).revised = e.txn := (resolve_key _ _).2
      rw [hrev]
      exact r7 e he
  · intro r hr
    rw [r3]
    rcases r5 r hr with hr | ⟨e, he, _, rfl⟩
    · exact h.rpkc r hr
    · rw [h.model]; exact rowFrom_pkc h.mok _ e
  · intro r hr
    rw [r3]
    rcases r5 r hr with hr | ⟨e, he, _, rfl⟩
    · exact h.rlegal r hr
    · rw [h.model]
      have : (rowFrom t.model t.model.deltas.length e).key = e.key := (resolve_key _ _).1
      rw [this]
      exact (d2 e he).key
  · rw [hq, d1.vw, r6, d4]
    have hf := d1.fold (q := t.queue.drop n) (fun x hx => hl.qvalid x (List.mem_of_mem_drop hx))
      ((t.queue.take n).foldl (adelta t) (vw R))
    rw [hf]
    have h1 : (t.queue.drop n).foldl (adelta { t with queue := t.queue.drop n }) ((t.queue.take n).foldl (adelta t) (vw R))
        = (t.queue.drop n).foldl (adelta t) ((t.queue.take n).foldl (adelta t) (vw R)) := rfl
    rw [h1, ← List.foldl_append, hsp]
    exact h.eq

/-- With nothing pending, the restored table has the rows. -/
theorem Sync.settled {t R : Tbl} (h : Sync t R) (hq : t.queue = []) : vw R = vw t := by
  have := h.eq
  rw [hq] at this
  exact this

/-- After a restart the restored table is the table. -/
theorem Sync.restart {t R : Tbl} (h : Sync t R) (hq : t.queue = []) : Sync R R where
  mok := by rw [h.model]; exact h.mok
  model := rfl
  live := ⟨h.rest, by simp [h.rq], by simp [h.rq], by simp [h.rq], h.rver hq, by simp [h.rq], h.rpkc, h.rlegal⟩
  rest := h.rest
  rq := h.rq
  low := fun r hr => ⟨h.rver hq r hr, by simp [h.rq]⟩
  rver := fun _ => h.rver hq
  rpkc := h.rpkc
  rlegal := h.rlegal
  eq := by rw [h.rq]; rfl

/-- A new table. -/
theorem Sync.empty {m : Model} (hm : MOk m) : Sync (Tbl.empty m) (Tbl.empty m) := by
  refine ⟨hm, rfl, ⟨⟨?_, ?_⟩, ?_, ?_, ?_, ?_, ?_, ?_, ?_⟩, ⟨?_, ?_⟩, rfl, ?_, ?_, ?_, ?_, rfl⟩ <;>
    simp [Tbl.empty]

end Verif.Batch
