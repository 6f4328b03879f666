import Verif.Batch.Commit
import Verif.Dml.TableTheorems
import Verif.Dml.SchemaTheorems
/-!
C11: the life of a model: statements, changes of the columns and batches in any order, clean shutdowns and
restarts.
-/
namespace Verif.Batch
open Verif.Gns (SDelta Model upd fget ModelOk PkNonNull FieldsOk)
open Verif.Dml (Key Cells RowObj DKind Delta Tbl kget kdel resolve setRow colNames FloatOps Stmt Asn Where exec
  execUpdate Inv RowInv RowOk abs normCells ATable Fine StmtOk SpecStep SpecRun Reply lookup_row exec_spec kget_mem
  resolve_id resolveWhere C32_update_partial where_none whereKey_iff)
open Verif.Dml (alterModel)
open Verif.Enc (Fields)
open Verif.Gns (AlterKind)
open Verif.Journal (JW SErr Reached openJournal HEADER)

/-! ### The scenario -/

/-- What happens to a model while the server runs: a statement, an `ALTER MODEL`, or a batch of at most `n`
pending changes (`fractal/mgr.rs:348-376`, `:447-475`). -/
inductive Op where
  | stmt (s : Stmt)
  | alter (perm : Fields → Fields) (k : AlterKind)
  | flush (n : Nat)

/-- A model in memory and the writer of its data file. -/
structure Srv where
  w : JW
  t : Tbl

/-- How a scenario ends: as it should, or with a file or a counter that has become too large (`full`), or in
any other way. -/
inductive Run (α : Type) where
  | ok (a : α)
  | full
  | bad

def Run.bind {α β : Type} : Run α → (α → Run β) → Run β
  | .ok a, f => f a
  | .full, _ => .full
  | .bad, _ => .bad

/-- Give up when the file has `lim` bytes or the version counter is `lim`. -/
def check {α : Type} (lim : Nat) (s : Srv) (a : α) : Run (Srv × α) :=
  if s.w.log.disk.length < lim ∧ s.t.ver < lim then .ok (s, a) else .full

/-- Write a batch of at most `n` pending changes. An empty batch is not written (`fractal/mgr.rs:455-457`). -/
def flushSome (lim : Nat) (s : Srv) (n : Nat) : Run (Srv × List Reply) :=
  if min n s.t.queue.length = 0 then .ok (s, [])
  else
    match commitBatch s.w s.t (min n s.t.queue.length) with
    | (w, t, _, .ok ()) => check lim ⟨w, t⟩ []
    | _ => .bad

/-- One operation and its reply. -/
def step (F : FloatOps) (order : List (Key × Nat) → List (Key × Nat)) (lim : Nat) (s : Srv) : Op → Run (Srv × List Reply)
  | .stmt st => check lim ⟨s.w, (exec F order s.t st).1⟩ [(exec F order s.t st).2]
  | .alter perm k => .ok (⟨s.w, { s.t with model := alterModel perm s.t.model k }⟩, [])
  | .flush n => flushSome lim s n

def steps (F : FloatOps) (order : List (Key × Nat) → List (Key × Nat)) (lim : Nat) : List Op → Srv → Run (Srv × List Reply)
  | [], s => .ok (s, [])
  | o :: os, s => (step F order lim s o).bind fun (s, r) => (steps F order lim os s).bind fun (s, rs) => .ok (s, r ++ rs)

/-- A clean shutdown: everything that is pending is written (`fractal/mgr.rs:392-397`), and the file is
closed (`fractal/mod.rs:96-106`). Gives the file. -/
def shutdown (lim : Nat) (s : Srv) : Run Bytes :=
  (flushSome lim s s.t.queue.length).bind fun (s, _) =>
    match s.w.close with
    | (w, .ok ()) => .ok w.log.disk
    | _ => .bad

/-- What is left after a session: the file, the table that was in memory, the replies. -/
structure End where
  file : Bytes
  t : Tbl
  replies : List Reply

def session (F : FloatOps) (order : List (Key × Nat) → List (Key × Nat)) (lim : Nat) (ops : List Op) (s : Srv) : Run End :=
  (steps F order lim ops s).bind fun (s, rs) => (shutdown lim s).bind fun f => .ok ⟨f, s.t, rs⟩

/-- Open the file of the model `m` (`open_journal`, as in C01). -/
def start (lim : Nat) (m : Model) (file : Bytes) : Run (Srv × Unit) :=
  match openJournal batchDecode (Tbl.empty m) file [] with
  | .ok (w, t) => check lim ⟨w, t⟩ ()
  | _ => .bad

/-- Sessions, each with a restart before it. The catalogue gives the model as it was (C09). -/
def later (F : FloatOps) (order : List (Key × Nat) → List (Key × Nat)) (lim : Nat) :
    List (List Op) → End → Run End
  | [], e => .ok e
  | ops :: rest, e =>
    (start lim e.t.model e.file).bind fun (s, _) => (session F order lim ops s).bind fun e' =>
      later F order lim rest ⟨e'.file, e'.t, e.replies ++ e'.replies⟩

/-- The life of a model: it is created with the file header `hdr`, and the sessions follow. -/
def life (F : FloatOps) (order : List (Key × Nat) → List (Key × Nat)) (lim : Nat) (m : Model) (hdr : Bytes)
    (first : List Op) (rest : List (List Op)) : Run End :=
  match JW.create hdr [] with
  | (w, .ok ()) => (session F order lim first ⟨w, Tbl.empty m⟩).bind (later F order lim rest)
  | _ => .bad

/-- The statements of a list of operations. -/
def stmts : List Op → List Stmt
  | [] => []
  | .stmt s :: os => s :: stmts os
  | _ :: os => stmts os

/-- No `ALTER MODEL`. -/
def Fixed (os : List Op) : Prop := ∀ perm k, Op.alter perm k ∉ os

/-! ### Lemmas -/

theorem pairwise_length {α : Type} {f : α → Nat} : ∀ {l : List α} {a v : Nat}, l.Pairwise (fun x y => f x < f y) →
    (∀ x ∈ l, a ≤ f x ∧ f x < v) → l.length ≤ v - a
  | [], _, _, _, _ => Nat.zero_le _
  | x :: l, a, v, hp, h => by
    rw [List.pairwise_cons] at hp
    have hx := h x (by simp)
    have := pairwise_length (a := f x + 1) (v := v) hp.2 (fun y hy => ⟨hp.1 y hy, (h y (by simp [hy])).2⟩)
    simp only [List.length_cons]
    omega

theorem LInv.length {t : Tbl} (h : LInv t) : t.queue.length ≤ t.ver :=
  pairwise_length (f := (·.ver)) (a := 0) h.sorted fun x hx => ⟨Nat.zero_le _, h.qver x hx⟩

theorem SpecRun.append {F : FloatOps} {m : Model} : ∀ {A B C : ATable} {ss tt : List Stmt} {rs qs : List Reply},
    SpecRun F m A ss B rs → SpecRun F m B tt C qs → SpecRun F m A (ss ++ tt) C (rs ++ qs)
  | _, _, _, _, _, _, _, .nil, h => h
  | _, _, _, _, _, _, _, .cons h hs, g => .cons h (SpecRun.append hs g)

theorem Fine.split {F : FloatOps} {m : Model} : ∀ {ss tt : List Stmt} {A : ATable}, Fine F m (ss ++ tt) A →
    Fine F m ss A ∧ ∀ B rs, SpecRun F m A ss B rs → Fine F m tt B
  | [], tt, A, h => ⟨trivial, by intro B rs hr; cases hr; exact h⟩
  | s :: ss, tt, A, h => by
    refine ⟨⟨h.1, fun B r hs => (Fine.split (h.2 B r hs)).1⟩, ?_⟩
    intro B rs hr
    cases hr with
    | cons h1 h2 => exact (Fine.split (h.2 _ _ h1)).2 _ _ h2

/-- The UPDATEs of C32 do not change a row without saying so. -/
theorem clean_of_ok {F : FloatOps} {m : Model} (hm : ModelOk m) {t : Tbl} (ht : Inv m t) {s : Stmt}
    (hs : StmtOk F m (abs t) s) : Clean F t s := by
  cases s with
  | insert d => exact hs
  | update as w =>
    rw [Clean]
    have hmod := ht.model
    cases hw : resolveWhere m w with
    | none =>
      have he : execUpdate F t as w = (t, .err .unindexed) := by rw [execUpdate, hmod, hw]
      rw [he]; exact .inr rfl
    | some k =>
      have hk := whereKey_iff.1 hw
      rcases lookup_row ht k with ⟨hi, _⟩ | ⟨i, r, hi, hr, ha, _, _, _, hrow⟩
      · have he : execUpdate F t as w = (t, .err .rowNotFound) := by rw [execUpdate, hmod, hw]; simp [hi]
        rw [he]; exact .inr rfl
      · obtain ⟨hp, hun⟩ := hs k _ hk ha
        subst hmod
        rcases C32_update_partial (fun k f h => hm.fields.2 _ (Gns.fget_mem h)) hw hi hr hrow hp hun with
          ⟨_, _, h2, _⟩ | ⟨_, _, _, h3⟩
        · exact .inl h2
        · rw [h3]; exact .inr rfl
  | delete w => trivial
  | select fs w => trivial
  | selectAll fs n => trivial

/-- Rows as the reader makes them. -/
def Exact (m : Model) (R : Tbl) : Prop := ∀ r ∈ R.heap, r.schema = m.deltas.length ∧
  ∃ cs, cs.length = (others m).length ∧ r.cells = zipCells (others m) cs

theorem mem_others {m : Model} {k : String} : k ∈ others m ↔ (fget m.fields k).isSome ∧ k ≠ m.pk := by
  have : k ∈ colNames m.fields ↔ (fget m.fields k).isSome := by
    have := @Gns.fget_none m.fields k
    cases h : fget m.fields k with
    | none => simp only [h, true_iff] at this; simpa [Gns.names, colNames] using this
    | some f => simp only [h, reduceCtorEq, false_iff, Decidable.not_not] at this; simpa [Gns.names, colNames] using this
  simp [others, this]

/-- Restored rows are the rows that were written. -/
theorem exact_cells {m : Model} (hm : MOk m) {c : Cells} (hc : RowOk m.fields m.pk c) {cs : List Cell}
    (hl : cs.length = (others m).length) (h : cs = rowCells m.pk m.fields c) : zipCells (others m) cs = c := by
  obtain ⟨h1, h2⟩ := zip_foldl hm.others_nodup cs (fun _ => none) (by simp) hl.symm
  have hpk : c m.pk = none := (hc m.pk).2 (.inr rfl)
  rw [rowCells_eq hpk] at h
  rw [h, List.map_map] at h1
  rw [← h] at h1
  have h3 := List.map_inj_left.1 h1
  funext k
  by_cases hk : k ∈ others m
  · obtain ⟨a, b⟩ := mem_others.1 hk
    obtain ⟨f, hf⟩ := Option.isSome_iff_exists.1 a
    obtain ⟨x, hx, _⟩ := (hc k).1 f hf b
    have := h3 k hk
    simp only [Function.comp, hx, Option.getD_some] at this
    rw [hx]
    exact this
  · have h4 : zipCells (others m) cs k = none := h2 k hk
    rw [h4]
    refine ((hc k).2 ?_).symm
    rw [mem_others] at hk
    by_cases e : k = m.pk
    · exact .inr e
    · refine .inl ?_
      cases hf : fget m.fields k with
      | none => rfl
      | some f => exact absurd ⟨by simp [hf], e⟩ hk

theorem restored_same {m : Model} (hm : MOk m) {t R : Tbl} (ht : Inv m t) (hR : RInv R) (hmod : R.model = m)
    (hl : ∀ r ∈ R.heap, r.key.uniq = m.pkTag.uniq) (he : Exact m R) (hv : vw R = vw t) : Inv m R ∧ abs R = abs t := by
  have key : ∀ k i r, kget R.idx k = some i → R.heap[i]? = some r →
      ∃ i' r', kget t.idx k = some i' ∧ t.heap[i']? = some r' ∧ r.schema = m.deltas.length ∧ r.cells = r'.cells ∧
        RowOk m.fields m.pk r'.cells ∧ abs t k = some (normCells r'.cells) := by
    intro k i r hi hr
    have h1 : vw R k = some (rowList R.model r, r.revised) := by simp [vw, hi, hr]
    rw [hv] at h1
    rcases lookup_row ht k with ⟨g1, _⟩ | ⟨i', r', g1, g2, g3, _, _, g4, g5⟩
    · simp [vw, g1] at h1
    · have h2 : vw t k = some (rowList t.model r', r'.revised) := by simp [vw, g1, g2]
      rw [h1, hmod, ht.model] at h2
      simp only [Option.some.injEq, Prod.mk.injEq] at h2
      obtain ⟨e1, cs, e2, e3⟩ := he r (List.mem_of_getElem? hr)
      refine ⟨i', r', g1, g2, e1, ?_, g5, g3⟩
      have h3 := h2.1
      rw [rowList, rowList, resolve_id e1, resolve_id g4, e3, rowCells_zip hm e2] at h3
      rw [e3]
      exact exact_cells hm g5 e2 h3
  constructor
  · refine ⟨hmod, hR.nodup, ?_⟩
    rintro ⟨k, i⟩ hki
    obtain ⟨r, h1, h2⟩ := hR.valid _ hki
    simp only at h1 h2
    have hg : kget R.idx k = some i := Dml.kget_of_mem hR.nodup hki
    obtain ⟨_, r', _, _, h3, h4, h5, _⟩ := key k i r hg h1
    refine ⟨?_, r, h1, h2, h3, by rw [h4]; exact h5⟩
    rw [← h2]
    exact hl r (List.mem_of_getElem? h1)
  · funext k
    rcases hR.lookup k with ⟨h1, h2⟩ | ⟨i, r, h1, h2, h3⟩
    · rw [hv] at h2
      rcases lookup_row ht k with ⟨_, g2⟩ | ⟨i', r', g1, g2, _⟩
      · rw [g2]; simp [abs, h1]
      · simp [vw, g1, g2] at h2
    · obtain ⟨_, r', _, _, _, h4, _, h6⟩ := key k i r h1 h2
      rw [h6]
      simp [abs, h1, h2, h4]

/-! ### The invariant -/

/-- What is asked of the model. -/
structure LifeOk (m : Model) : Prop where
  model : ModelOk m
  pk : PkNonNull m
  notAdded : SDelta.add m.pk ∉ m.deltas
  deltas : m.deltas.length < 2 ^ 64
  fields : m.fields.length < 2 ^ 64

theorem LifeOk.mok {m : Model} (h : LifeOk m) : MOk m := by
  refine ⟨h.model.fields.1, ?_, h.model.uniq, h.notAdded⟩
  obtain ⟨f, hf, _⟩ := h.model.pk
  exact List.mem_map_of_mem (f := (·.1)) (Gns.fget_mem hf)

/-- A running server, and the table that its file would be restored to. -/
structure Good (m : Model) (lim : Nat) (s : Srv) (R : Tbl) : Prop where
  idle : s.w.Idle
  reached : Reached batchDecode (Tbl.empty m) s.w R
  sync : Sync s.t R
  vals : Vals TagOk s.t
  inv : Inv m s.t
  exact : Exact m R
  rvals : Vals TagOk R
  ver : s.t.ver < lim

theorem inv_lazy {m : Model} {t u : Tbl} (h : Inv m t) (g : Lazy t u) : Inv m u ∧ abs u = abs t := by
  have hrow : ∀ (i : Nat) (r : RowObj), t.heap[i]? = some r → r.schema = m.deltas.length → u.heap[i]? = some r := by
    intro i r h1 h2
    rcases g.heap i with e | e
    · rw [e, h1]
    · rw [e, h1, h.model, Option.map_some, resolve_id h2]
  constructor
  · refine ⟨g.model.trans h.model, by rw [g.idx]; exact h.nodup, ?_⟩
    intro e he
    rw [g.idx] at he
    obtain ⟨h1, r, h2, h3, h4, h5⟩ := h.rows e he
    exact ⟨h1, r, hrow _ r h2 h4, h3, h4, h5⟩
  · funext k
    rcases lookup_row h k with ⟨h1, h2⟩ | ⟨i, r, h1, h2, h3, _, _, h4, _⟩
    · rw [h2]; simp [abs, g.idx, h1]
    · rw [h3]; simp [abs, g.idx, h1, hrow i r h2 h4]

theorem flatten_mem_length {e : Rec} {es : List Rec} (h : e ∈ es) :
    (recBytes e).length ≤ ((es.map recBytes).flatten).length := by
  induction es with
  | nil => cases h
  | cons x es ih =>
    simp only [List.map_cons, List.flatten_cons, List.length_append]
    rcases List.mem_cons.1 h with rfl | h
    · omega
    · have := ih h; omega

theorem rec_length {e : Rec} {es : List Rec} (h : e ∈ es) (id n : Nat) (m : Model) :
    (recBytes e).length ≤ (batchEvent id n m es).length := by
  have := flatten_mem_length h
  simp only [batchEvent, batchBytes, batchBody, List.length_append]
  omega

theorem Good.flush {m : Model} (hm : LifeOk m) {lim : Nat} (hlim : lim ≤ 2 ^ 62) {s : Srv} {R : Tbl} (h : Good m lim s R)
    (n : Nat) : flushSome lim s n = .full ∨ ∃ s' R', flushSome lim s n = .ok (s', []) ∧ Good m lim s' R' ∧
      abs s'.t = abs s.t ∧ s'.t.queue = s.t.queue.drop n ∧
      (s.w.log.disk.length < lim → s'.w.log.disk.length < lim) := by
  rw [flushSome]
  by_cases h0 : min n s.t.queue.length = 0
  · rw [if_pos h0]
    refine .inr ⟨s, R, rfl, h, rfl, ?_, id⟩
    by_cases hn : n = 0
    · subst hn; rfl
    · have : s.t.queue = [] := List.length_eq_zero_iff.1 (by omega)
      simp [this]
  · rw [if_neg h0]
    have hdrop : s.t.queue.drop (min n s.t.queue.length) = s.t.queue.drop n := by
      by_cases hle : n ≤ s.t.queue.length
      · rw [Nat.min_eq_left hle]
      · rw [Nat.min_eq_right (by omega), List.drop_length, List.drop_eq_nil_of_le (by omega)]
    generalize hk : min n s.t.queue.length = k at h0 hdrop
    have hkq : k ≤ s.t.queue.length := by omega
    have hpos : 0 < k := by omega
    obtain ⟨d1, d2, d3, d4, d5⟩ := drain_spec (P := TagOk) trivial k h.sync.mok h.sync.live h.vals hkq
    have hmod : s.t.model = m := h.inv.model
    have hleg : ∀ e ∈ (drain k s.t).2, e.key.uniq ≠ .illegal := by
      intro e he
      rw [(d2 e he).key]
      exact h.sync.mok.uniq
    obtain ⟨w', e1, i1, c1, k1, t1, n1, o1⟩ := commitBatch_idle h.idle hkq hleg
    rw [e1]
    simp only [check]
    by_cases hfull : w'.log.disk.length < lim ∧ (drain k s.t).1.ver < lim
    · rw [if_pos hfull]
      obtain ⟨R', r1, r2, r3⟩ := h.sync.flush (P := TagOk) trivial h.vals hkq hpos
      have hwf : ∀ e ∈ (drain k s.t).2, RecWf s.t.model e := by
        intro e he
        refine ⟨d2 e he, ?_, ?_⟩
        · have := d3.subset (List.mem_map_of_mem (f := (·.txn)) he)
          simp only [List.mem_map] at this
          obtain ⟨d, h1, h2⟩ := this
          have := h.sync.live.qver d (List.mem_of_mem_take h1)
          have := h.ver
          omega
        · have := rec_length he s.w.txnId k s.t.model
          have h2 := hfull.1
          rw [c1, List.length_append] at h2
          omega
      have hlen := h.sync.live.length
      have hver := h.ver
      have hreach := reached_step h.reached h.idle c1 (by simp only [batchEvent, List.length_append, le_length]; omega)
        (applyNext_batch h.idle i1 h.sync.mok (drain_length k s.t) hwf (by omega) (by rw [hmod]; exact hm.deltas)
          (by rw [hmod]; exact hm.fields) r1 c1 k1 t1 n1 o1 (by omega))
      have hinv := inv_lazy (m := m) (t := { s.t with queue := s.t.queue.drop k }) ⟨h.inv.model, h.inv.nodup, h.inv.rows⟩ d1
      refine .inr ⟨⟨w', (drain k s.t).1⟩, R', rfl, ?_, ?_, ?_, fun _ => hfull.1⟩
      · refine ⟨i1, hreach, r2, Vals.lazy (t := { s.t with queue := s.t.queue.drop k }) trivial h.vals d1, hinv.1, ?_, ?_, hfull.2⟩
        · intro r hr
          rcases r3 r hr with hr | ⟨e, he, hkd, rfl⟩
          · exact h.exact r hr
          · rw [hmod, rowFrom, resolve_id rfl]
            refine ⟨rfl, e.cells, ?_, rfl⟩
            rw [← hmod]
            exact (d2 e he).len hkd
        · intro r hr
          rcases r3 r hr with hr | ⟨e, he, hkd, rfl⟩
          · exact h.rvals r hr
          · exact rowFrom_vals trivial (d2 e he).vals
      · exact hinv.2
      · have : (drain k s.t).1.queue = s.t.queue.drop k := d1.queue
        simp only [this, hdrop]
    · rw [if_neg hfull]; exact .inl rfl

theorem Good.step {F : FloatOps} {order : List (Key × Nat) → List (Key × Nat)} (ho : ∀ l, (order l).Perm l) {m : Model}
    (hm : LifeOk m) {lim : Nat} (hlim : lim ≤ 2 ^ 62) {s : Srv} {R : Tbl} (h : Good m lim s R)
    (hsz : s.w.log.disk.length < lim) {o : Op} (hok : Fine F m (stmts [o]) (abs s.t))
    (hfix : ∀ perm k, o ≠ .alter perm k) (htag : ∀ st ∈ stmts [o], StmtTags st) : step F order lim s o = .full ∨
      ∃ s' R' rs, step F order lim s o = .ok (s', rs) ∧ Good m lim s' R' ∧ s'.w.log.disk.length < lim ∧
        SpecRun F m (abs s.t) (stmts [o]) (abs s'.t) (rs.map Reply.norm) := by
  cases o with
  | alter perm k => exact absurd rfl (hfix perm k)
  | flush n =>
    rcases h.flush hm hlim n with hf | ⟨s', R', h1, h2, h3, _, h5⟩
    · exact .inl hf
    · refine .inr ⟨s', R', [], h1, h2, h5 hsz, ?_⟩
      rw [h3]
      exact .nil
  | stmt st =>
    have hst : StmtOk F m (abs s.t) st := hok.1
    obtain ⟨e1, e2⟩ := exec_spec hm.model hm.pk ho h.inv hst
    rw [Batch.step, check]
    by_cases hfull : s.w.log.disk.length < lim ∧ (exec F order s.t st).1.ver < lim
    · simp only [hfull, and_self, if_true]
      refine .inr ⟨_, R, _, rfl, ⟨h.idle, h.reached, ?_, exec_vals h.vals (htag st (by simp [stmts])), e1, h.exact, h.rvals,
        hfull.2⟩, hsz, .cons e2 .nil⟩
      exact h.sync.exec (by rw [h.inv.model]; exact hm.model) (by rw [h.inv.model]; exact hm.pk)
        (clean_of_ok hm.model h.inv hst)
    · simp only [hfull, if_false]
      exact .inl trivial

theorem stmts_append : ∀ (a b : List Op), stmts (a ++ b) = stmts a ++ stmts b
  | [], _ => rfl
  | .stmt s :: a, b => by simp [stmts, stmts_append a b]
  | .alter _ _ :: a, b => by simp [stmts, stmts_append a b]
  | .flush _ :: a, b => by simp [stmts, stmts_append a b]

theorem Good.steps {F : FloatOps} {order : List (Key × Nat) → List (Key × Nat)} (ho : ∀ l, (order l).Perm l) {m : Model}
    (hm : LifeOk m) {lim : Nat} (hlim : lim ≤ 2 ^ 62) : ∀ {os : List Op} {s : Srv} {R : Tbl}, Good m lim s R →
    s.w.log.disk.length < lim → Fine F m (stmts os) (abs s.t) → Fixed os → (∀ st ∈ stmts os, StmtTags st) →
    steps F order lim os s = .full ∨
      ∃ s' R' rs, steps F order lim os s = .ok (s', rs) ∧ Good m lim s' R' ∧ s'.w.log.disk.length < lim ∧
        SpecRun F m (abs s.t) (stmts os) (abs s'.t) (rs.map Reply.norm)
  | [], s, R, h, hsz, _, _, _ => .inr ⟨s, R, [], rfl, h, hsz, .nil⟩
  | o :: os, s, R, h, hsz, hf, hx, ht => by
    have hsp : stmts (o :: os) = stmts [o] ++ stmts os := stmts_append [o] os
    rw [hsp] at hf ht ⊢
    obtain ⟨hf1, hf2⟩ := Fine.split hf
    rcases h.step (order := order) ho hm hlim hsz hf1 (fun perm k e => hx perm k (by simp [e])) (fun st hst => ht st (by simp [hst])) with e | ⟨s1, R1, rs1, e, g, z, sp⟩
    · exact .inl (by rw [Batch.steps, e]; rfl)
    · rcases g.steps ho hm hlim (os := os) z (hf2 _ _ sp) (fun perm k hk => hx perm k (by simp [hk])) (fun st hst => ht st (by simp [hst])) with
        e2 | ⟨s2, R2, rs2, e2, g2, z2, sp2⟩
      · exact .inl (by rw [Batch.steps, e]; simp only [Run.bind, e2])
      · refine .inr ⟨s2, R2, rs1 ++ rs2, by rw [Batch.steps, e]; simp only [Run.bind, e2], g2, z2, ?_⟩
        rw [List.map_append]
        exact SpecRun.append sp sp2

/-- A file that is restored to the rows `A`, and the writer then. -/
structure Kept (m : Model) (file : Bytes) (w : JW) (R : Tbl) : Prop where
  opens : openJournal batchDecode (Tbl.empty m) file [] = .ok (w, R)
  idle : w.Idle
  reached : Reached batchDecode (Tbl.empty m) w R
  sync : Sync R R
  inv : Inv m R
  exact : Exact m R
  vals : Vals TagOk R

theorem Good.shutdown {m : Model} (hm : LifeOk m) {lim : Nat} (hlim : lim ≤ 2 ^ 62) {s : Srv} {R : Tbl} (h : Good m lim s R)
    (hsz : s.w.log.disk.length < lim) : shutdown lim s = .full ∨
      ∃ file w T, shutdown lim s = .ok file ∧ Kept m file w T ∧ abs T = abs s.t := by
  rcases h.flush hm hlim s.t.queue.length with hf | ⟨s1, R1, h1, h2, h3, h4, h5⟩
  · exact .inl (by rw [Batch.shutdown, hf]; rfl)
  · have hz := h5 hsz
    rw [List.drop_length] at h4
    obtain ⟨w1, e1, i1, d1, k1, t1, n1, o1⟩ := h2.idle.commitDriver .closed
    have hl1 : w1.log.disk.length = s1.w.log.disk.length + 64 := by
      rw [d1, List.length_append, Journal.drvBytes, Journal.encode_length]
    have hs := h2.reached.scroll_closed h2.idle e1 (by omega)
    obtain ⟨w2, e2, i2, d2, -⟩ := i1.commitDriver .reopened
    have hl2 : w2.log.disk.length = w1.log.disk.length + 64 := by
      rw [d2, List.length_append, Journal.drvBytes, Journal.encode_length]
    have h0 : w1.knownTxnOffset ≠ 0 := by
      rw [o1, i1.good.cur]; have := i1.hdr; simp only [HEADER] at this; omega
    have hmod : R1.model = m := h2.sync.model.trans h2.inv.model
    obtain ⟨r1, r2⟩ := restored_same hm.mok h2.inv h2.sync.rest hmod
      (by have := h2.sync.rlegal; rw [hmod] at this; exact this) h2.exact (h2.sync.settled h4)
    refine .inr ⟨w1.log.disk, w2, R1, ?_, ⟨?_, i2, h2.reached.reopen h2.idle e1 e2 (by omega), h2.sync.restart h4, r1,
      h2.exact, h2.rvals⟩, by rw [r2, h3]⟩
    · rw [Batch.shutdown, h1]
      simp only [Run.bind, JW.close, e1]
    · unfold openJournal
      rw [hs]
      simp only [Res.bind]
      rw [JW.new_of_reader i1 h0, e2]

theorem Kept.good {m : Model} {lim : Nat} {file : Bytes} {w : JW} {R : Tbl} (h : Kept m file w R) (hv : R.ver < lim) :
    Good m lim ⟨w, R⟩ R :=
  ⟨h.idle, h.reached, h.sync, h.vals, h.inv, h.exact, h.vals, hv⟩

theorem Good.session {F : FloatOps} {order : List (Key × Nat) → List (Key × Nat)} (ho : ∀ l, (order l).Perm l) {m : Model}
    (hm : LifeOk m) {lim : Nat} (hlim : lim ≤ 2 ^ 62) {os : List Op} {s : Srv} {R : Tbl} (h : Good m lim s R)
    (hsz : s.w.log.disk.length < lim) (hf : Fine F m (stmts os) (abs s.t)) (hx : Fixed os) (ht : ∀ st ∈ stmts os, StmtTags st) :
    session F order lim os s = .full ∨
      ∃ e w T, session F order lim os s = .ok e ∧ Kept m e.file w T ∧ abs T = abs e.t ∧ e.t.model = m ∧
        SpecRun F m (abs s.t) (stmts os) (abs e.t) (e.replies.map Reply.norm) := by
  rcases h.steps ho hm hlim hsz hf hx ht with e | ⟨s1, R1, rs, e, g, z, sp⟩
  · exact .inl (by rw [Batch.session, e]; rfl)
  · rcases g.shutdown hm hlim z with e2 | ⟨file, w, T, e2, k, ha⟩
    · exact .inl (by rw [Batch.session, e]; simp only [Run.bind, e2])
    · exact .inr ⟨⟨file, s1.t, rs⟩, w, T, by rw [Batch.session, e]; simp only [Run.bind, e2], k, ha, g.inv.model, sp⟩

theorem Kept.later {F : FloatOps} {order : List (Key × Nat) → List (Key × Nat)} (ho : ∀ l, (order l).Perm l) {m : Model}
    (hm : LifeOk m) {lim : Nat} (hlim : lim ≤ 2 ^ 62) {A : ATable} : ∀ {rest : List (List Op)} {done : List Stmt} {e : End}
    {w : JW} {T : Tbl}, Kept m e.file w T → abs T = abs e.t → e.t.model = m →
    SpecRun F m A done (abs e.t) (e.replies.map Reply.norm) →
    Fine F m (rest.map stmts).flatten (abs e.t) →
    (∀ os ∈ rest, Fixed os) → (∀ st ∈ (rest.map stmts).flatten, StmtTags st) →
    later F order lim rest e = .full ∨
      ∃ e' w' T', later F order lim rest e = .ok e' ∧ Kept m e'.file w' T' ∧ abs T' = abs e'.t ∧
        SpecRun F m A (done ++ (rest.map stmts).flatten) (abs e'.t) (e'.replies.map Reply.norm)
  | [], done, e, w, T, h, ha, _, hr, _, _, _ => .inr ⟨e, w, T, rfl, h, ha, by simpa using hr⟩
  | os :: rest, done, e, w, T, h, ha, hmod, hr, hf, hx, ht => by
    simp only [List.map_cons, List.flatten_cons] at hf ht
    obtain ⟨f1, f2⟩ := Fine.split hf
    rw [Batch.later, start, hmod, h.opens]
    simp only [check]
    by_cases hfull : w.log.disk.length < lim ∧ T.ver < lim
    · rw [if_pos hfull]
      simp only [Run.bind]
      rw [← ha] at f1
      rcases (h.good hfull.2).session (order := order) ho hm hlim hfull.1 f1 (hx os (by simp)) (fun st hst => ht st (by simp [hst])) with
        e1 | ⟨e1, w1, T1, h1, k1, a1, m1, sp⟩
      · exact .inl (by rw [e1])
      · rw [h1]
        simp only
        rw [ha] at sp
        have sp' : SpecRun F m A (done ++ stmts os) (abs e1.t) ((e.replies ++ e1.replies).map Reply.norm) := by
          rw [List.map_append]; exact SpecRun.append hr sp
        have := Kept.later (order := order) ho hm hlim (rest := rest) (e := ⟨e1.file, e1.t, e.replies ++ e1.replies⟩) k1 a1 m1 sp'
          (f2 _ _ sp) (fun os hos => hx os (by simp [hos])) (fun st hst => ht st (by simp [hst]))
        simpa [List.append_assoc] using this
    · rw [if_neg hfull]; exact .inl rfl

/-- **C11 (partial).** The life of a model whose columns do not change: any statements (with UPDATEs as in
C32), any batches in between, any number of clean restarts. It runs until the file or the version counter is
full; all replies and the rows are those of a map from keys to rows to which only the statements were
applied, and opening the file once more gives the rows that were in memory. Missing (and false, see below):
UPDATEs that fail halfway, and nullable primary keys. Missing: concurrent statements (C13), failed writes
(C14). -/
theorem C11_restarts_are_invisible_partial {F : FloatOps} {order : List (Key × Nat) → List (Key × Nat)}
    (ho : ∀ l, (order l).Perm l) {m : Model} (hm : LifeOk m) {lim : Nat} (hlim : lim ≤ 2 ^ 62) {hdr : Bytes}
    (hh : hdr.length = HEADER) (hlo : HEADER < lim) {first : List Op} {rest : List (List Op)}
    (hx : ∀ os ∈ first :: rest, Fixed os) (hf : Fine F m ((first :: rest).map stmts).flatten (fun _ => none))
    (ht : ∀ st ∈ ((first :: rest).map stmts).flatten, StmtTags st) :
    life F order lim m hdr first rest = .full ∨
      ∃ e, life F order lim m hdr first rest = .ok e ∧
        SpecRun F m (fun _ => none) ((first :: rest).map stmts).flatten (abs e.t) (e.replies.map Reply.norm) ∧
        ∃ w T, openJournal batchDecode (Tbl.empty m) e.file [] = .ok (w, T) ∧ abs T = abs e.t := by
  obtain ⟨w, e1, i1, d1, r1⟩ := Journal.create_idle hh
  simp only [List.map_cons, List.flatten_cons] at hf ht ⊢
  obtain ⟨f1, f2⟩ := Fine.split hf
  have hg : Good m lim ⟨w, Tbl.empty m⟩ (Tbl.empty m) :=
    ⟨i1, r1 _ _ _, Sync.empty hm.mok, by intro r hr; simp [Tbl.empty] at hr, ⟨rfl, List.nodup_nil, by simp [Tbl.empty]⟩,
      by intro r hr; simp [Tbl.empty] at hr, by intro r hr; simp [Tbl.empty] at hr, by simp only [Tbl.empty]; omega⟩
  rw [life, e1]
  simp only
  rcases hg.session (order := order) ho hm hlim (by simp only [d1, hh]; exact hlo) f1 (hx first (by simp)) (fun st hst => ht st (by simp [hst])) with
    e2 | ⟨e2, w2, T2, h2, k2, a2, m2, sp⟩
  · exact .inl (by rw [e2]; rfl)
  · rw [h2]
    simp only [Run.bind]
    rcases k2.later (order := order) ho hm hlim (rest := rest) a2 m2 sp (f2 _ _ sp) (fun os hos => hx os (by simp [hos])) (fun st hst => ht st (by simp [hst])) with
      e3 | ⟨e3, w3, T3, h3, k3, a3, sp3⟩
    · exact .inl e3
    · exact .inr ⟨e3, h3, sp3, w3, T3, k3.opens, a3⟩

end Verif.Batch
