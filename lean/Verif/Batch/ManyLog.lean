import Verif.Batch.Many
/-!
C78: the pending changes, the batch that is being written, and the file.
-/
namespace Verif.Batch.Many
open Verif.Gns (Model)
open Verif.Dml (Key Cells RowObj DKind Delta Tbl kget kdel resolve setRow resolve_id set_self)
open Verif.Journal (TW JW SErr Reached Decode MASK)

/-! ### Effective changes -/

/-- Writing the change now would say something about the row of the key. -/
def Eff (t : Tbl) (d : Delta) (k : Key) : Prop :=
  ∃ r, t.heap[d.row]? = some r ∧ r.key = k ∧ (d.kind = .delete ∨ r.revised ≤ d.ver)

/-- What is known of all rows, also of those that were deleted. -/
structure RowFine (m : Model) (r : RowObj) : Prop where
  key : r.key.uniq = m.pkTag.uniq
  schema : r.schema = m.deltas.length
  pkc : r.cells m.pk = none
  tags : CTags r.cells

/-- The rows that the file would be restored to, if all that is pending was written now. -/
def final (t : Tbl) (recs : List Rec) (R : Tbl) : View :=
  t.queue.foldl (adelta t) (recs.foldl (aapply t.model t.model.deltas.length) (vw R))

/-- The version is later than all that was or will be written for the key. -/
structure Below (t : Tbl) (recs : List Rec) (R : Tbl) (k : Key) (v : Nat) : Prop where
  rest : ∀ c u, vw R k = some (c, u) → u < v
  recs : ∀ e ∈ recs, e.key = k → e.txn < v
  queue : ∀ d ∈ t.queue, Eff t d k → d.ver < v

/-- The table, the records of the batch, and the table that the file would be restored to. -/
structure Log (m : Model) (t : Tbl) (recs : List Rec) (R : Tbl) : Prop where
  mok : MOk m
  model : t.model = m
  rmodel : R.model = m
  rest : RInv R
  rq : R.queue = []
  exact : Exact m R
  rvals : Vals TagOk R
  rlegal : ∀ r ∈ R.heap, r.key.uniq = m.pkTag.uniq
  rows : ∀ r ∈ t.heap, RowFine m r
  qrow : ∀ d ∈ t.queue, d.row < t.heap.length
  qver : ∀ d ∈ t.queue, d.ver < t.ver
  ever : ∀ e ∈ recs, e.txn < t.ver
  rver : ∀ k c v, vw R k = some (c, v) → v < t.ver
  einc : recs.Pairwise fun a b => a.key = b.key → a.txn < b.txn
  erest : ∀ e ∈ recs, ∀ c v, vw R e.key = some (c, v) → v < e.txn
  qinc : t.queue.Pairwise fun a b => ∀ k, Eff t a k → Eff t b k → a.ver < b.ver
  qabove : ∀ d ∈ t.queue, ∀ k, Eff t d k → (∀ e ∈ recs, e.key = k → e.txn < d.ver) ∧
    ∀ c v, vw R k = some (c, v) → v < d.ver
  eok : ∀ e ∈ recs, RecOk m TagOk e

theorem Log.below {m : Model} {t R : Tbl} {recs : List Rec} (h : Log m t recs R) (k : Key) : Below t recs R k t.ver :=
  ⟨h.rver k, fun e he _ => h.ever e he, fun d hd _ => h.qver d hd⟩

/-- Rows keep their keys and are only revised forwards. -/
structure Grow (t u : Tbl) : Prop where
  model : u.model = t.model
  queue : u.queue = t.queue
  ver : t.ver ≤ u.ver
  heap : ∀ (i : Nat) (r : RowObj), t.heap[i]? = some r → ∃ s, u.heap[i]? = some s ∧ s.key = r.key ∧ r.revised ≤ s.revised

theorem Grow.same {t u : Tbl} (hm : u.model = t.model) (hq : u.queue = t.queue) (hv : t.ver ≤ u.ver) (hh : u.heap = t.heap) :
    Grow t u := ⟨hm, hq, hv, fun i r h => ⟨r, by rw [hh]; exact h, rfl, Nat.le_refl _⟩⟩

theorem Grow.length {t u : Tbl} (h : Grow t u) : t.heap.length ≤ u.heap.length := by
  rcases Nat.lt_or_ge u.heap.length t.heap.length with hl | hl
  · obtain ⟨s, hs, _⟩ := h.heap _ _ (List.getElem?_eq_getElem hl)
    have := (List.getElem?_eq_some_iff.1 hs).1
    omega
  · exact hl

theorem Eff.back {t u : Tbl} (g : Grow t u) {d : Delta} {k : Key} (hd : d.row < t.heap.length) (h : Eff u d k) : Eff t d k := by
  obtain ⟨s, h1, h2, h3⟩ := h
  obtain ⟨s', g1, g2, g3⟩ := g.heap _ _ (List.getElem?_eq_getElem hd)
  rw [h1] at g1
  cases g1
  refine ⟨_, List.getElem?_eq_getElem hd, by rw [← g2]; exact h2, ?_⟩
  rcases h3 with h | h
  · exact .inl h
  · exact .inr (Nat.le_trans g3 h)

theorem Below.grow {m : Model} {t u R : Tbl} {recs : List Rec} (hl : Log m t recs R) (g : Grow t u) {k : Key} {v : Nat}
    (h : Below t recs R k v) : Below u recs R k v := by
  refine ⟨h.rest, h.recs, ?_⟩
  rw [g.queue]
  exact fun d hd he => h.queue d hd (he.back g (hl.qrow d hd))

theorem Log.grow {m : Model} {t u R : Tbl} {recs : List Rec} (h : Log m t recs R) (g : Grow t u)
    (hr : ∀ r ∈ u.heap, RowFine m r) : Log m u recs R where
  mok := h.mok
  model := g.model.trans h.model
  rmodel := h.rmodel
  rest := h.rest
  rq := h.rq
  exact := h.exact
  rvals := h.rvals
  rlegal := h.rlegal
  rows := hr
  qrow := by rw [g.queue]; exact fun d hd => Nat.lt_of_lt_of_le (h.qrow d hd) g.length
  qver := by rw [g.queue]; exact fun d hd => Nat.lt_of_lt_of_le (h.qver d hd) g.ver
  ever := fun e he => Nat.lt_of_lt_of_le (h.ever e he) g.ver
  rver := fun k c v hk => Nat.lt_of_lt_of_le (h.rver k c v hk) g.ver
  einc := h.einc
  erest := h.erest
  qinc := by
    rw [g.queue]
    refine h.qinc.imp_of_mem ?_
    intro a b ha hb hab k ea eb
    exact hab k (ea.back g (h.qrow a ha)) (eb.back g (h.qrow b hb))
  qabove := by rw [g.queue]; exact fun d hd k he => h.qabove d hd k (he.back g (h.qrow d hd))
  eok := h.eok

/-- One more pending change. -/
theorem Log.push {m : Model} {t R : Tbl} {recs : List Rec} (h : Log m t recs R) {d : Delta} (hd : d.row < t.heap.length)
    (hv : d.ver < t.ver) (hb : ∀ k, Eff t d k → Below t recs R k d.ver) : Log m { t with queue := t.queue ++ [d] } recs R := by
  refine ⟨h.mok, h.model, h.rmodel, h.rest, h.rq, h.exact, h.rvals, h.rlegal, h.rows, ?_, ?_, h.ever, h.rver, h.einc, h.erest,
    ?_, ?_, h.eok⟩
  · intro x hx
    rcases List.mem_append.1 hx with hx | hx
    · exact h.qrow x hx
    · cases List.mem_singleton.1 hx; exact hd
  · intro x hx
    rcases List.mem_append.1 hx with hx | hx
    · exact h.qver x hx
    · cases List.mem_singleton.1 hx; exact hv
  · show (t.queue ++ [d]).Pairwise _
    rw [List.pairwise_append]
    refine ⟨h.qinc, by simp, ?_⟩
    intro a ha b hb' k ea eb
    cases List.mem_singleton.1 hb'
    exact (hb k eb).queue a ha ea
  · intro x hx k he
    rcases List.mem_append.1 hx with hx | hx
    · exact h.qabove x hx k he
    · cases List.mem_singleton.1 hx
      exact ⟨(hb k he).recs, (hb k he).rest⟩

theorem final_push (t R : Tbl) (recs : List Rec) (d : Delta) :
    final { t with queue := t.queue ++ [d] } recs R = adelta t (final t recs R) d := by
  rw [final, List.foldl_append]
  rfl

/-- A change does not concern other keys, and only the key that it is effective for. -/
theorem adelta_other {t : Tbl} {A : View} {d : Delta} {k : Key} (h : ¬ Eff t d k) : adelta t A d k = A k := by
  rw [adelta]
  cases hr : t.heap[d.row]? with
  | none => rfl
  | some r =>
    simp only
    have key : (d.kind = .delete ∨ r.revised ≤ d.ver) → k ≠ r.key := by
      rintro h1 rfl
      exact h ⟨r, hr, rfl, h1⟩
    cases hk : d.kind with
    | delete => simp only; rw [if_neg (key (.inl hk))]
    | insert =>
      simp only
      split
      · rename_i hle; simp only; rw [if_neg (key (.inr hle))]
      · rfl
    | update =>
      simp only
      split
      · rename_i hle; simp only; rw [if_neg (key (.inr hle))]
      · rfl

/-! ### Taking a change -/

theorem stepRec_same {m : Model} {t : Tbl} (hm : t.model = m) (hr : ∀ r ∈ t.heap, RowFine m r) (d : Delta) :
    (stepRec t d).1 = t := by
  rw [stepRec]
  cases hd : t.heap[d.row]? with
  | none => rfl
  | some r =>
    have hid : setRow t d.row (resolve t.model.deltas r) = t := by
      rw [resolve_id (by rw [hm]; exact (hr r (List.mem_of_getElem? hd)).schema), setRow, set_self hd]
    simp only
    cases d.kind with
    | delete => rfl
    | insert => simp only; split <;> simp [hid]
    | update => simp only; split <;> simp [hid]

theorem stepRec_eff {t : Tbl} {d : Delta} {e : Rec} (h : (stepRec t d).2 = some e) : Eff t d e.key ∧ e.txn = d.ver := by
  rw [stepRec] at h
  cases hd : t.heap[d.row]? with
  | none => rw [hd] at h; cases h
  | some r =>
    rw [hd] at h
    simp only at h
    cases hk : d.kind with
    | delete => rw [hk] at h; cases h; exact ⟨⟨r, hd, rfl, .inl hk⟩, rfl⟩
    | insert =>
      rw [hk] at h
      simp only at h
      split at h
      · rename_i hle; cases h; exact ⟨⟨r, hd, rfl, .inr hle⟩, rfl⟩
      · cases h
    | update =>
      rw [hk] at h
      simp only at h
      split at h
      · rename_i hle; cases h; exact ⟨⟨r, hd, rfl, .inr hle⟩, rfl⟩
      · cases h

theorem Log.take {m : Model} {t R : Tbl} {recs : List Rec} (h : Log m t recs R) {d : Delta} {ds : List Delta}
    (hq : t.queue = d :: ds) :
    (stepRec { t with queue := ds } d).1 = { t with queue := ds } ∧
    Log m { t with queue := ds } (recs ++ (stepRec { t with queue := ds } d).2.toList) R ∧
    final { t with queue := ds } (recs ++ (stepRec { t with queue := ds } d).2.toList) R = final t recs R ∧
    ∀ k v, Below t recs R k v → Below { t with queue := ds } (recs ++ (stepRec { t with queue := ds } d).2.toList) R k v := by
  have hdq : d ∈ t.queue := by rw [hq]; simp
  have hsub : ∀ x ∈ ds, x ∈ t.queue := fun x hx => by rw [hq]; simp [hx]
  have hmod := h.model
  obtain ⟨s1, s2, s3, s4⟩ := stepRec_spec (t := { t with queue := ds }) (P := TagOk) (by show MOk t.model; rw [hmod]; exact h.mok)
    trivial (fun r hr => (h.rows r hr).tags) (by intro r hr; show r.cells t.model.pk = none; rw [hmod]; exact (h.rows r hr).pkc)
    (by intro r hr; show r.key.uniq = t.model.pkTag.uniq; rw [hmod]; exact (h.rows r hr).key) (h.qrow d hdq)
  have hsame := stepRec_same (t := { t with queue := ds }) hmod h.rows d
  have heff : ∀ e, (stepRec { t with queue := ds } d).2 = some e → Eff t d e.key ∧ e.txn = d.ver := fun e he =>
    stepRec_eff (t := { t with queue := ds }) he
  have hinc := h.qinc
  rw [hq, List.pairwise_cons] at hinc
  generalize stepRec { t with queue := ds } d = st at s1 s2 s3 s4 hsame heff
  obtain ⟨u, o⟩ := st
  simp only at s1 s2 s3 s4 hsame heff
  refine ⟨hsame, ?_, ?_, ?_⟩
  · have hmem : ∀ e ∈ o.toList, o = some e := by intro e he; simpa using he
    refine ⟨h.mok, hmod, h.rmodel, h.rest, h.rq, h.exact, h.rvals, h.rlegal, h.rows, fun x hx => h.qrow x (hsub x hx),
      fun x hx => h.qver x (hsub x hx), ?_, h.rver, ?_, ?_, hinc.2, ?_, ?_⟩
    · intro e he
      rcases List.mem_append.1 he with he | he
      · exact h.ever e he
      · rw [(heff e (hmem e he)).2]; exact h.qver d hdq
    · rw [List.pairwise_append]
      refine ⟨h.einc, by cases o <;> simp, ?_⟩
      intro a ha b hb hab
      obtain ⟨e1, e2⟩ := heff b (hmem b hb)
      rw [e2]
      exact (h.qabove d hdq _ e1).1 a ha hab
    · intro e he
      rcases List.mem_append.1 he with he | he
      · exact h.erest e he
      · obtain ⟨e1, e2⟩ := heff e (hmem e he)
        rw [e2]
        exact (h.qabove d hdq _ e1).2
    · intro x hx k hk
      obtain ⟨a1, a2⟩ := h.qabove x (hsub x hx) k hk
      refine ⟨?_, a2⟩
      intro e he hek
      rcases List.mem_append.1 he with he | he
      · exact a1 e he hek
      · obtain ⟨e1, e2⟩ := heff e (hmem e he)
        rw [hek] at e1
        rw [e2]
        exact hinc.1 x hx k e1 hk
    · intro e he
      rcases List.mem_append.1 he with he | he
      · exact h.eok e he
      · have := (s3 e (hmem e he)).1
        rw [show ({ t with queue := ds } : Tbl).model = m from hmod] at this
        exact this
  · show ds.foldl (adelta t) _ = _
    rw [final, hq, List.foldl_cons, List.foldl_append]
    congr 1
    cases o with
    | none => exact (s2 _ rfl).symm
    | some e => exact (s3 e rfl).2.2 _
  · intro k v hb
    refine ⟨hb.rest, ?_, fun x hx => hb.queue x (hsub x hx)⟩
    intro e he hek
    rcases List.mem_append.1 he with he | he
    · exact hb.recs e he hek
    · obtain ⟨e1, e2⟩ := heff e (by simpa using he)
      rw [e2]
      rw [hek] at e1
      exact hb.queue d hdq e1

/-- Taking `n` changes at once. -/
theorem Log.drain {m : Model} : ∀ (n : Nat) {t R : Tbl} {recs : List Rec}, Log m t recs R → n ≤ t.queue.length →
    (Batch.drain n t).1 = { t with queue := t.queue.drop n } ∧
    Log m { t with queue := t.queue.drop n } (recs ++ (Batch.drain n t).2) R ∧
    final { t with queue := t.queue.drop n } (recs ++ (Batch.drain n t).2) R = final t recs R
  | 0, t, R, recs, h, _ => by
    simp only [Batch.drain, List.drop_zero, List.append_nil]
    exact ⟨trivial, h, trivial⟩
  | n + 1, t, R, recs, h, hn => by
    cases hq : t.queue with
    | nil => rw [hq] at hn; simp at hn
    | cons d ds =>
      obtain ⟨t1, t2, t3, _⟩ := h.take hq
      rw [hq] at hn
      rw [Batch.drain]
      simp only [hq]
      generalize stepRec { t with queue := ds } d = st at t1 t2 t3
      obtain ⟨u, o⟩ := st
      simp only at t1 t2 t3
      subst t1
      obtain ⟨i1, i2, i3⟩ := Log.drain n t2 (by simpa using hn)
      cases o with
      | none =>
        simp only [List.drop_succ_cons, Option.toList_none, List.append_nil] at i1 i2 i3 t3 ⊢
        exact ⟨i1, i2, i3.trans t3⟩
      | some e =>
        simp only [List.drop_succ_cons, Option.toList_some, List.append_assoc, List.singleton_append] at i1 i2 i3 t3 ⊢
        exact ⟨i1, i2, i3.trans t3⟩

/-! ### Restoring the batch -/

theorem fold_ver {m : Model} {schema : Nat} : ∀ {es : List Rec} {A : View} {k : Key} {c : List Cell} {v : Nat},
    es.foldl (aapply m schema) A k = some (c, v) → A k = some (c, v) ∨ ∃ e ∈ es, e.key = k ∧ v = e.txn
  | [], _, _, _, _, h => .inl h
  | e :: es, A, k, c, v, h => by
    rw [List.foldl_cons] at h
    rcases fold_ver h with h1 | ⟨x, h1, h2⟩
    · rw [aapply] at h1
      by_cases hk : k = e.key
      · rw [if_pos hk] at h1
        refine .inr ⟨e, by simp, hk.symm, ?_⟩
        cases hd : e.kind <;> rw [hd] at h1 <;> simp at h1 <;> exact h1.2.symm
      · rw [if_neg hk] at h1; exact .inl h1
    · exact .inr ⟨x, by simp [h1], h2⟩

theorem Log.restore {m : Model} {t R : Tbl} {recs : List Rec} (h : Log m t recs R) :
    ∃ R', finish R ⟨m.deltas.length, recs⟩ = .ok R' ∧ Log m t [] R' ∧ final t [] R' = final t recs R ∧
      ∀ k v, Below t recs R k v → Below t [] R' k v := by
  obtain ⟨R', r1, r2, r3, r4, r5, r6, r7⟩ := finish_keys h.rest (schema := m.deltas.length) h.einc h.erest
  rw [h.rmodel] at r3 r5 r6
  have hrow : ∀ e : Rec, rowFrom m m.deltas.length e = ⟨e.key, zipCells (others m) e.cells, m.deltas.length, e.txn⟩ := by
    intro e; rw [rowFrom, resolve_id rfl]
  have hver : ∀ k c v, vw R' k = some (c, v) → vw R k = some (c, v) ∨ ∃ e ∈ recs, e.key = k ∧ v = e.txn := by
    intro k c v hk
    rw [r6] at hk
    exact fold_ver hk
  refine ⟨R', r1, ⟨h.mok, h.model, r3, r2, r4.trans h.rq, ?_, ?_, ?_, h.rows, h.qrow, h.qver, by simp, ?_, by simp, by simp, h.qinc,
    ?_, by simp⟩, ?_, ?_⟩
  · intro r hr
    rcases r5 r hr with hr | ⟨e, he, hk, rfl⟩
    · exact h.exact r hr
    · rw [hrow]; exact ⟨rfl, e.cells, (h.eok e he).len hk, rfl⟩
  · intro r hr
    rcases r5 r hr with hr | ⟨e, he, hk, rfl⟩
    · exact h.rvals r hr
    · exact rowFrom_vals (P := TagOk) trivial (h.eok e he).vals
  · intro r hr
    rcases r5 r hr with hr | ⟨e, he, hk, rfl⟩
    · exact h.rlegal r hr
    · rw [hrow]; exact (h.eok e he).key
  · intro k c v hk
    rcases hver k c v hk with h1 | ⟨e, h1, _, rfl⟩
    · exact h.rver k c v h1
    · exact h.ever e h1
  · intro d hd k he
    refine ⟨by simp, ?_⟩
    intro c v hk
    rcases hver k c v hk with h1 | ⟨e, h1, h2, rfl⟩
    · exact (h.qabove d hd k he).2 c v h1
    · exact (h.qabove d hd k he).1 e h1 h2
  · rw [final, final, h.model, r6]; rfl
  · intro k v hb
    refine ⟨?_, by simp, hb.queue⟩
    intro c u hk
    rcases hver k c u hk with h1 | ⟨e, h1, h2, rfl⟩
    · exact hb.rest c u h1
    · exact hb.recs e h1 h2

/-! ### Writing the batch -/

theorem writeRecs_good : ∀ (es : List Rec) {w : TW}, w.Good → (∀ e ∈ es, e.key.uniq ≠ .illegal) →
    ∃ w', writeRecs w es = (w', .ok ()) ∧ w'.Good ∧ w'.content = w.content ++ (es.map recBytes).flatten ∧
      w'.ck = Crc.update w.ck (es.map recBytes).flatten ∧ w'.pck = Crc.update w.pck (es.map recBytes).flatten ∧
      w'.size = w.size
  | [], w, h, _ => ⟨w, rfl, h, by simp, by simp, by simp, rfl⟩
  | e :: es, w, h, he => by
    obtain ⟨w1, e1, g1, c1, k1, p1, z1⟩ := writeRec_good h (he e (by simp))
    obtain ⟨w2, e2, g2, c2, k2, p2, z2⟩ := writeRecs_good es g1 (fun x hx => he x (by simp [hx]))
    refine ⟨w2, ?_, g2, ?_, ?_, ?_, by rw [z2, z1]⟩
    · rw [writeRecs, e1]; simp only [e2]
    · rw [c2, c1]; simp
    · rw [k2, k1]; simp [Crc.update_append]
    · rw [p2, p1]; simp [Crc.update_append]

theorem recsWrite_good {n : Nat} {t : Tbl} {es : List Rec} {w : TW} (h : w.Good) (hp : w.pck = Crc.new)
    (he : ∀ e ∈ es, e.key.uniq ≠ .illegal) :
    ∃ w', recsWrite n t es w = ⟨w', t, 0, .ok ()⟩ ∧ w'.Good ∧ w'.content = w.content ++ batchBytes n t.model es ∧
      w'.ck = Crc.update w.ck (batchBytes n t.model es) ∧ w'.pck = Crc.new ∧ w'.size = w.size := by
  obtain ⟨w1, e1, g1, c1, k1, p1, z1⟩ := dtrackAll_good h (le 8 n :: metaChunks t.model)
  obtain ⟨w2, e2, g2, c2, k2, p2, z2⟩ := writeRecs_good es g1 he
  obtain ⟨w3, e3, g3, c3, k3, p3, z3⟩ := dtrackAll_good g2 (tailChunks n es.length)
  have hbody : (le 8 n :: metaChunks t.model).flatten ++ ((es.map recBytes).flatten ++
      (tailChunks n es.length).flatten) = batchBody n t.model es := by
    simp only [metaChunks, tailChunks, batchBody, List.flatten_cons, List.flatten_nil, List.append_nil, List.append_assoc,
      List.flatten_append]
    congr 6
    split <;> simp
  have hp3 : w3.pck = Crc.update Crc.new (batchBody n t.model es) := by
    rw [p3, p2, p1, hp, ← hbody]
    simp only [Crc.update_append]
  obtain ⟨w4, e4, g4, c4, k4, p4, z4⟩ := (show ({ w3 with pck := Crc.new } : TW).Good from ⟨g3.io, g3.cur, g3.cap⟩).trackedWrite
    (le 8 (Crc.finish w3.pck))
  have hck : Crc.finish w3.pck = Crc.crc (batchBody n t.model es) := by rw [hp3]; rfl
  have hcont : ({ w3 with pck := Crc.new } : TW).content = w3.content := rfl
  refine ⟨w4, ?_, g4, ?_, ?_, by rw [p4], by rw [z4]; simp only [z3, z2, z1]⟩
  · rw [recsWrite, e1]
    simp only [andThen, e2, batchEnd, e3, TW.resetPartial, e4]
  · rw [c4, hcont, c3, c2, c1, batchBytes, ← hbody, hck, ← hbody]
    simp only [List.append_assoc]
  · rw [k4]
    simp only
    rw [k3, k2, k1, batchBytes, ← hbody, hck, ← hbody]
    simp only [Crc.update_append]

theorem commitRecs_idle {w : JW} (h : w.Idle) {t : Tbl} {n : Nat} {es : List Rec} (he : ∀ e ∈ es, e.key.uniq ≠ .illegal) :
    ∃ w', commitRecs w t n es = (w', .ok ()) ∧ w'.Idle ∧ w'.log.disk = w.log.disk ++ batchEvent w.txnId n t.model es ∧
      w'.log.ck = Crc.update w.log.ck (batchEvent w.txnId n t.model es) ∧
      w'.txnId = w.txnId + 1 ∧ w'.knownTxnId = w.txnId ∧ w'.knownTxnOffset = w'.log.cursor :=
  h.commitWith 0 (adapter := fun log => ((recsWrite n t es log).w, (recsWrite n t es log).res))
    (bs := batchBytes n t.model es) (by
      intro l hl hp
      obtain ⟨l', b1, b2, b3, b4, b5, b6⟩ := recsWrite_good (n := n) (t := t) hl hp he
      exact ⟨l', by rw [b1], b2, b3, b4, b5, b6⟩)

/-- A batch that is written at once and one whose changes were taken before leave the same file. -/
theorem recs_same {w : JW} (h : w.Idle) {t : Tbl} {n : Nat} (hn : n ≤ t.queue.length)
    (he : ∀ e ∈ (drain n t).2, e.key.uniq ≠ .illegal) :
    (commitBatch w t n).1.log.disk = (commitRecs w t n (drain n t).2).1.log.disk ∧
      (commitBatch w t n).2.2.2 = (commitRecs w t n (drain n t).2).2 := by
  obtain ⟨w1, e1, _, d1, _⟩ := commitBatch_idle h hn he
  obtain ⟨w2, e2, _, d2, _⟩ := commitRecs_idle (t := t) (n := n) h he
  rw [e1, e2]
  exact ⟨by simp only; rw [d1, d2], rfl⟩

/-- After the records were written, the file is restored to the table with the records. -/
theorem Log.written {m : Model} (hm : LifeOk m) {t R : Tbl} {recs : List Rec} (h : Log m t recs R) {lim n : Nat}
    (hlim : lim ≤ 2 ^ 62) (hver : t.ver < lim) (hn : n < lim) (hrn : recs.length ≤ n) {w w' : JW} (hi : w.Idle) (hi' : w'.Idle)
    (hr : Reached batchDecode (Tbl.empty m) w R) (c1 : w'.log.disk = w.log.disk ++ batchEvent w.txnId n m recs)
    (k1 : w'.log.ck = Crc.update w.log.ck (batchEvent w.txnId n m recs))
    (t1 : w'.txnId = w.txnId + 1) (n1 : w'.knownTxnId = w.txnId) (o1 : w'.knownTxnOffset = w'.log.cursor)
    (hsz : w'.log.disk.length < lim) :
    ∃ R', Reached batchDecode (Tbl.empty m) w' R' ∧ Log m t [] R' ∧ final t [] R' = final t recs R ∧
      ∀ k v, Below t recs R k v → Below t [] R' k v := by
  obtain ⟨R', r1, r2, r3, r4⟩ := h.restore
  refine ⟨R', ?_, r2, r3, r4⟩
  have hwf : ∀ e ∈ recs, RecWf m e := by
    intro e he
    refine ⟨h.eok e he, ?_, ?_⟩
    · have := h.ever e he; omega
    · have := rec_length he w.txnId n m
      rw [c1, List.length_append] at hsz
      omega
  exact reached_step hr hi c1 (by simp only [batchEvent, List.length_append, le_length]; omega)
    (applyNext_recs hi hi' h.mok hrn hwf (by omega) hm.deltas hm.fields r1 c1 k1 t1 n1 o1 (by omega))

end Verif.Batch.Many
