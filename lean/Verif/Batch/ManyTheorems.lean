import Verif.Batch.ManyPast
import Verif.Batch.Conc
/-!
C78: the theorems.
-/
namespace Verif.Batch.Many
open Verif.Gns (Model ModelOk PkNonNull)
open Verif.Dml (Key Cells RowObj DKind Delta Tbl FloatOps Stmt Where InsData Reply ATable SpecStep StmtOk WhereKey whereKey_iff kget
  kget_mem Inv abs prepareInsert resolveWhere resolve_id set_self setRow)
open Verif.Dml.Par (Pos St Sch sched Wf TWf NoAll rowsOf stKey rowAct resolveData setData look)
open Verif.Conc (Ev ASt AThr upd upd_same upd_other)
open Verif.Journal (JW SErr Reached openJournal HEADER)
open Verif.Dml (exF exModel exModel_ok exRow whereId)

/-! ### Steps of the statements -/

theorem setData_same {t : Tbl} {i : Nat} {r : RowObj} (h : t.heap[i]? = some r) (v : Nat) :
    setData { t with ver := v } i r (Dml.Par.RowObj.data r) = { t with ver := v } := by
  simp only [setData, setRow, Dml.Par.RowObj.data]
  rw [set_self h]

theorem rowAct_same {F : FloatOps} {m : Model} {r : RowObj} (h : r.schema = m.deltas.length) {st : Stmt}
    (hs : ∀ as w, st ≠ .update as w) : (rowAct F m st (Dml.Par.RowObj.data r)).1 = Dml.Par.RowObj.data r := by
  have hid : resolveData m (Dml.Par.RowObj.data r) = Dml.Par.RowObj.data r := by
    simp only [resolveData, Dml.Par.RowObj.data]
    rw [resolve_id (by exact h)]
  cases st with
  | update as w => exact absurd rfl (hs as w)
  | select fs w =>
    simp only [rowAct]
    cases resolveWhere m w with
    | none => rfl
    | some k => exact hid
  | insert d => rfl
  | delete w => rfl
  | selectAll fs l => rfl

theorem Dur.silent {m : Model} {s : St} {os : Nat → Option Stmt} {recs : List Rec} {R : Tbl} (h : Dur m s os recs R)
    (hw : Wf m s.t s.th) {n v : Nat} {p : Pos} {sh : List Nat} {ex : Bool} {he : List Nat} (hv : s.t.ver ≤ v)
    (hnp : ∀ d, s.th n ≠ .push d) (hnp' : ∀ d, p ≠ .push d)
    (hp : PosInv m { s.t with ver := v } (os n) p) (hi : ∀ a d k c, p = .insertV a d k c → a = s.t.ver)
    (hd : ∀ a w, p = .deleteV a w → a = s.t.ver) : Dur m ⟨{ s.t with ver := v }, upd s.th n p, sh, ex, he⟩ os recs R :=
  h.quiet hw hv hnp hnp' (fun _ _ => rfl)
    (fun st h1 x st' hx h2 => h.apart n x st st' (fun e => hx e.symm) h1 h2) hp hi hd

theorem Dur.stop {m : Model} {s : St} {os : Nat → Option Stmt} {recs : List Rec} {R : Tbl} (h : Dur m s os recs R)
    (hw : Wf m s.t s.th) {n v : Nat} {sh : List Nat} {ex : Bool} {he : List Nat} (hv : s.t.ver ≤ v)
    (hnp : ∀ d, s.th n ≠ .push d) (r : Reply) : Dur m ⟨{ s.t with ver := v }, upd s.th n (.done r), sh, ex, he⟩ os recs R :=
  h.silent hw hv hnp (by simp) trivial (by simp) (by simp)

theorem Dur.look {m : Model} {s : St} {os : Nat → Option Stmt} {recs : List Rec} {R : Tbl} (h : Dur m s os recs R)
    (hw : Wf m s.t s.th) {n : Nat} {st : Stmt} {w : Where} (hn : s.th n = .called st) : Dur m (look s n st w) os recs R := by
  have hnp : ∀ d, s.th n ≠ .push d := by rw [hn]; simp
  have ho : os n = some st := by have := h.pos n; rw [hn] at this; exact this.1
  unfold Dml.Par.look
  cases hr : resolveWhere s.t.model w with
  | none => exact h.stop hw (v := s.t.ver) (Nat.le_refl _) hnp _
  | some k =>
    simp only
    cases hk : kget s.t.idx k with
    | none => exact h.stop hw (v := s.t.ver) (Nat.le_refl _) hnp _
    | some i =>
      exact h.silent hw (v := s.t.ver) (Nat.le_refl _) hnp (by simp) ⟨ho, fun _ => hw.twf.mem.2 ⟨k, hk⟩⟩ (by simp) (by simp)

theorem Dur.step {F : FloatOps} {order : List (Key × Nat) → List (Key × Nat)} {m : Model} (hm : LifeOk m) {s s' : St}
    {os : Nat → Option Stmt} {recs : List Rec} {R : Tbl} (h : Dur m s os recs R) (hw : Wf m s.t s.th) (ht : Inv m s.t)
    (hok : ∀ n st, (∀ res, Dml.Par.view s.t res n (s.th n) = .pend st) → StmtOk F m (abs s.t) st) {n : Nat}
    (hs : Dml.Par.step F order s n = some s') : Dur m s' os recs R := by
  have hmod := hw.model
  have hpos := h.pos n
  have hwp := hw.pos n
  unfold Dml.Par.step at hs
  cases hp : s.th n with
  | idle => rw [hp] at hs; cases hs
  | done r => rw [hp] at hs; cases hs
  | reading ks rest acc => rw [hp] at hpos; exact hpos.elim
  | called st =>
    rw [hp] at hs hpos hwp
    have hnp : ∀ d, s.th n ≠ .push d := by rw [hp]; simp
    cases st with
    | insert d =>
      simp only at hs
      cases hi : prepareInsert s.t.model d with
      | ok x =>
        obtain ⟨k, c⟩ := x
        simp only [hi] at hs
        split at hs
        · cases hs
        · cases hs
          rw [hmod] at hi
          obtain ⟨p1, p2⟩ := prepared hm.model hm.pk (hok n (.insert d) (fun res => by rw [hp]; rfl)) hi hpos.2
          exact h.silent hw (v := s.t.ver) (Nat.le_refl _) hnp (by simp) ⟨hpos.1, p1, p2⟩ (by simp) (by simp)
      | err e => simp only [hi] at hs; cases hs; exact h.stop hw (v := s.t.ver) (Nat.le_refl _) hnp _
      | panic => simp only [hi] at hs; cases hs; exact h.stop hw (v := s.t.ver) (Nat.le_refl _) hnp _
      | hang => simp only [hi] at hs; cases hs; exact h.stop hw (v := s.t.ver) (Nat.le_refl _) hnp _
    | delete w =>
      simp only at hs
      split at hs
      · cases hs
      · cases hs
        exact h.silent hw (v := s.t.ver) (Nat.le_refl _) hnp (by simp) hpos.1 (by simp) (by simp)
    | update as w => cases hs; exact h.look hw hp
    | select fs w => cases hs; exact h.look hw hp
    | selectAll fs l => exact absurd rfl (hwp fs l)
  | insert d k c =>
    rw [hp] at hs hpos
    cases hs
    exact h.silent hw (v := s.t.ver + 1) (Nat.le_succ _) (by rw [hp]; simp) (by simp)
      ⟨hpos.1, hpos.2.1, hpos.2.2, Nat.lt_succ_self _⟩ (by intro a d k c e; cases e; rfl) (by simp)
  | delete w =>
    rw [hp] at hs hpos
    cases hs
    exact h.silent hw (v := s.t.ver + 1) (Nat.le_succ _) (by rw [hp]; simp) (by simp)
      ⟨hpos, Nat.lt_succ_self _⟩ (by simp) (by intro a w e; cases e; rfl)
  | push d =>
    rw [hp] at hs
    cases hs
    exact h.push hw hp .empty
  | insertV v d k c =>
    rw [hp] at hs
    simp only at hs
    cases hk : kget s.t.idx k with
    | some i =>
      rw [hk] at hs
      cases hs
      exact h.stop hw (v := s.t.ver) (Nat.le_refl _) (by rw [hp]; simp) _
    | none =>
      rw [hk] at hs
      cases hs
      exact h.insert hw hp hk
  | deleteV v w =>
    rw [hp] at hs
    simp only at hs
    cases hr : resolveWhere s.t.model w with
    | none =>
      rw [hr] at hs
      cases hs
      exact h.stop hw (v := s.t.ver) (Nat.le_refl _) (by rw [hp]; simp) _
    | some k =>
      rw [hr] at hs
      simp only at hs
      cases hk : kget s.t.idx k with
      | none =>
        rw [hk] at hs
        cases hs
        exact h.stop hw (v := s.t.ver) (Nat.le_refl _) (by rw [hp]; simp) _
      | some i =>
        rw [hk] at hs
        cases hs
        rw [hmod] at hr
        exact h.delete hw hp (whereKey_iff.1 hr) hk
  | found i st =>
    rw [hp] at hs hpos hwp
    obtain ⟨r, hr, hkey⟩ := hwp
    have hnp : ∀ d, s.th n ≠ .push d := by rw [hp]; simp
    have hfine := h.log.rows r (List.mem_of_getElem? hr)
    by_cases hheld : i ∈ s.held
    · cases st <;> simp only [hheld, if_true] at hs <;> cases hs
    have other : ∀ e sh ex he, (∀ as w, st ≠ .update as w) →
        Dur m ⟨setData s.t i r (rowAct F s.t.model st (Dml.Par.RowObj.data r)).1, upd s.th n (.done e), sh, ex, he⟩ os recs R := by
      intro e sh ex he hst
      rw [rowAct_same (by rw [hmod]; exact hfine.schema) hst]
      have hsame : setData s.t i r (Dml.Par.RowObj.data r) = s.t := setData_same hr s.t.ver
      rw [hsame]
      exact h.stop hw (v := s.t.ver) (Nat.le_refl _) hnp _
    cases st with
    | update as w =>
      simp only [hheld, if_false, hr] at hs
      have hlive := hpos.2 ⟨as, w, rfl⟩
      have hst := hok n (.update as w) (fun res => by rw [hp]; simp [Dml.Par.view, hlive])
      rcases updated (F := F) hm.model ht hst hkey ((hw.twf.live hr).1 hlive) hr with ⟨c, u1, u2, u3⟩ | ⟨e, u1⟩
      · rw [← hmod] at u1
        rw [u1] at hs
        cases hs
        exact h.update (r := r) hw hp ⟨as, w, rfl⟩ hr ((u2 m.pk).2 (.inr rfl)) (u3 hfine.tags)
      · rw [← hmod] at u1
        rw [u1] at hs
        cases hs
        have := h.stop hw (n := n) (v := s.t.ver + 1) (sh := s.shared) (ex := s.excl) (he := s.held) (Nat.le_succ _) hnp (.err e)
        rw [← setData_same hr] at this
        exact this
    | insert d => simp only [hheld, if_false, hr] at hs; cases hs; exact other _ _ _ _ (by simp)
    | delete w => simp only [hheld, if_false, hr] at hs; cases hs; exact other _ _ _ _ (by simp)
    | select fs w => simp only [hheld, if_false, hr] at hs; cases hs; exact other _ _ _ _ (by simp)
    | selectAll fs l => simp only [hheld, if_false, hr] at hs; cases hs; exact other _ _ _ _ (by simp)

/-! ### Histories -/

theorem opens_snoc (es : List (Ev Stmt Reply)) (e : Ev Stmt Reply) : opens (es ++ [e]) = openStep (opens es) e := by
  simp [opens]

theorem Allowed.left {F : FloatOps} {m : Model} {a b : List (Ev Stmt Reply)} (h : Allowed F m (a ++ b)) : Allowed F m a where
  apart := by
    rintro pre n st post rfl
    exact h.apart pre n st (post ++ b) (by simp)
  fair := by
    rintro pre post rfl
    exact h.fair pre (post ++ b) (by simp)
  tagged := fun n st hm => h.tagged n st (List.mem_append_left _ hm)
  noAll := fun n fs l hm => h.noAll n fs l (List.mem_append_left _ hm)

/-- Something happens that clients see. -/
theorem Dur.sched {F : FloatOps} {order : List (Key × Nat) → List (Key × Nat)} {m : Model} (hm : LifeOk m) {s s' : St}
    {es : List (Ev Stmt Reply)} {recs : List Rec} {R : Tbl} (h : Dur m s (opens es) recs R) (hp : Past F m s es) {o : Sch}
    (hfl : ∀ n, o ≠ .flush n) {e : Option (Ev Stmt Reply)} (hs : sched F order s o = some (s', e)) (ha : Allowed F m (es ++ e.toList)) :
    Dur m s' (opens (es ++ e.toList)) recs R := by
  have hw := hp.wf
  cases o with
  | flush n => exact absurd rfl (hfl n)
  | go n =>
    simp only [Dml.Par.sched, Option.map_eq_some_iff] at hs
    obtain ⟨s1, h1, h2⟩ := hs
    cases h2
    simp only [Option.toList_none, List.append_nil] at ha ⊢
    obtain ⟨n1, n2⟩ := hp.now ha.fair
    exact h.step hm hw n1 n2 h1
  | call n st =>
    simp only [Dml.Par.sched] at hs
    cases hi : s.th n with
    | idle =>
      rw [hi] at hs
      cases hs
      simp only [Option.toList_some] at ha ⊢
      rw [opens_snoc]
      refine h.quiet hw (v := s.t.ver) (p := .called st) (Nat.le_refl _) (by rw [hi]; simp) (by simp) ?_ ?_ ?_ (by simp) (by simp)
      · intro x hx; simp only [openStep, upd_other _ _ hx]
      · intro st' h1 x st2 hx h2
        simp only [openStep, upd_same, Option.some.injEq] at h1
        subst h1
        exact ha.apart es n st [] rfl x st2 h2
      · simp only [openStep, upd_same]
        exact ⟨rfl, ha.tagged n st (by simp)⟩
    | _ => rw [hi] at hs; cases hs
  | ret n =>
    simp only [Dml.Par.sched] at hs
    cases hi : s.th n with
    | done r =>
      rw [hi] at hs
      cases hs
      simp only [Option.toList_some] at ha ⊢
      rw [opens_snoc]
      refine h.quiet hw (v := s.t.ver) (p := .idle) (Nat.le_refl _) (by rw [hi]; simp) (by simp) ?_ ?_ ?_ (by simp) (by simp)
      · intro x hx; simp only [openStep, upd_other _ _ hx]
      · intro st' h1
        simp only [openStep, upd_same, reduceCtorEq] at h1
      · simp only [openStep, upd_same]; rfl
    | _ => rw [hi] at hs; cases hs

/-! ### The whole -/

/-- The records of the batch so far. -/
def recsOf (x : Sys) : List Rec :=
  match x.cur with
  | some c => c.recs
  | none => []

structure Live (F : FloatOps) (m : Model) (lim : Nat) (x : Sys) (es : List (Ev Stmt Reply)) (R : Tbl) : Prop where
  past : Past F m x.s es
  dur : Dur m x.s (opens es) (recsOf x) R
  idle : x.w.Idle
  reached : Reached batchDecode (Tbl.empty m) x.w R
  cur : ∀ c, x.cur = some c → c.recs.length + c.left ≤ c.n ∧ c.n < lim ∧ c.left ≤ x.s.t.queue.length
  disk : x.w.log.disk.length < lim
  ver : x.s.t.ver < lim
  queue : x.s.t.queue.length < lim

theorem step_queue {F : FloatOps} {order : List (Key × Nat) → List (Key × Nat)} {s s' : St} {n : Nat}
    (h : Dml.Par.step F order s n = some s') : s.t.queue.length ≤ s'.t.queue.length := by
  unfold Dml.Par.step at h
  repeat' split at h
  all_goals first
    | (cases h; done)
    | (cases h; simp [St.at, setData, setRow])
    | (cases h; simp only [look, St.at]; split <;> first | exact Nat.le_refl _ | (split <;> exact Nat.le_refl _))

theorem sched_queue {F : FloatOps} {order : List (Key × Nat) → List (Key × Nat)} {s s' : St} {o : Sch}
    (hfl : ∀ n, o ≠ .flush n) {e : Option (Ev Stmt Reply)} (h : sched F order s o = some (s', e)) :
    s.t.queue.length ≤ s'.t.queue.length := by
  cases o with
  | flush n => exact absurd rfl (hfl n)
  | go n =>
    simp only [Dml.Par.sched, Option.map_eq_some_iff] at h
    obtain ⟨s1, h1, h2⟩ := h
    cases h2
    exact step_queue h1
  | call n st =>
    simp only [Dml.Par.sched] at h
    split at h
    · cases h; exact Nat.le_refl _
    · cases h
  | ret n =>
    simp only [Dml.Par.sched] at h
    split at h
    · cases h; exact Nat.le_refl _
    · cases h

theorem bound_ok {lim : Nat} {x y : Sys} {e e' : Option (Ev Stmt Reply)} (h : bound lim x e = .ok (y, e')) :
    y = x ∧ e' = e ∧ x.w.log.disk.length < lim ∧ x.s.t.ver < lim ∧ x.s.t.queue.length < lim := by
  rw [bound] at h
  split at h
  · rename_i hc; cases h; exact ⟨rfl, rfl, hc⟩
  · cases h

theorem bound_bad {lim : Nat} {x : Sys} {e : Option (Ev Stmt Reply)} : bound lim x e ≠ .bad := by
  rw [bound]
  split <;> simp

theorem Live.client {F : FloatOps} {order : List (Key × Nat) → List (Key × Nat)} {m : Model} (hm : LifeOk m) {lim : Nat}
    {x y : Sys} {es : List (Ev Stmt Reply)} {R : Tbl} (h : Live F m lim x es R) {o : Sch} (hfl : ∀ n, o ≠ .flush n)
    {e : Option (Ev Stmt Reply)} (hs : client F order lim x o = some (.ok (y, e))) (ha : Allowed F m (es ++ e.toList)) :
    Live F m lim y (es ++ e.toList) R := by
  simp only [Many.client, Option.map_eq_some_iff] at hs
  obtain ⟨⟨s', e'⟩, h1, h2⟩ := hs
  obtain ⟨rfl, rfl, b1, b2, b3⟩ := bound_ok h2
  refine ⟨h.past.sched hm.model hm.pk h1 (fun n fs l hmem => ha.noAll n fs l (List.mem_append_right _ hmem)) ha.fair,
    h.dur.sched hm h.past hfl h1 ha, h.idle, h.reached, ?_, b1, b2, b3⟩
  intro c hc
  obtain ⟨c1, c2, c3⟩ := h.cur c hc
  exact ⟨c1, c2, Nat.le_trans c3 (sched_queue hfl h1)⟩

theorem Live.legal {F : FloatOps} {m : Model} {lim : Nat} {x : Sys} {es : List (Ev Stmt Reply)} {R : Tbl}
    (h : Live F m lim x es R) : ∀ e ∈ recsOf x, e.key.uniq ≠ .illegal := by
  intro e he
  rw [(h.dur.log.eok e he).key]
  exact h.dur.log.mok.uniq

/-- Whatever happens next. -/
theorem Live.act {F : FloatOps} {order : List (Key × Nat) → List (Key × Nat)} {m : Model} (hm : LifeOk m) {lim : Nat}
    (hlim : lim ≤ 2 ^ 62) {x : Sys} {es : List (Ev Stmt Reply)} {R : Tbl} (h : Live F m lim x es R) (a : Act) :
    act F order lim x a ≠ some .bad ∧ ∀ y e, act F order lim x a = some (.ok (y, e)) → Allowed F m (es ++ e.toList) →
      ∃ R', Live F m lim y (es ++ e.toList) R' := by
  have hbad : ∀ o, Many.client F order lim x o ≠ some .bad := by
    intro o
    simp only [Many.client]
    cases sched F order x.s o with
    | none => simp
    | some z => simpa using bound_bad
  have hmod := h.dur.log.model
  cases a with
  | call n st => exact ⟨hbad _, fun y e hs ha => ⟨R, h.client hm (by simp) hs ha⟩⟩
  | go n => exact ⟨hbad _, fun y e hs ha => ⟨R, h.client hm (by simp) hs ha⟩⟩
  | ret n => exact ⟨hbad _, fun y e hs ha => ⟨R, h.client hm (by simp) hs ha⟩⟩
  | begin n =>
    simp only [Many.act]
    cases hc : x.cur with
    | some c => simp
    | none =>
      simp only
      split
      · rename_i hn
        refine ⟨by simp, ?_⟩
        intro y e hs ha
        cases hs
        simp only [Option.toList_none, List.append_nil]
        have hd := h.dur
        simp only [recsOf, hc] at hd
        refine ⟨R, h.past, hd, h.idle, h.reached, ?_, h.disk, h.ver, h.queue⟩
        intro c hc'
        cases hc'
        exact ⟨by simp, Nat.lt_of_le_of_lt hn.2 h.queue, hn.2⟩
      · simp
  | take =>
    simp only [Many.act]
    cases hc : x.cur with
    | none => simp
    | some c =>
      obtain ⟨n, l, rs⟩ := c
      cases l with
      | zero => simp
      | succ l =>
        obtain ⟨c1, c2, c3⟩ := h.cur _ hc
        simp only at c1 c2 c3 ⊢
        cases hq : x.s.t.queue with
        | nil => rw [hq] at c3; simp at c3
        | cons d ds =>
          simp only
          split
          · simp
          · refine ⟨by simp, ?_⟩
            intro y e hs ha
            cases hs
            simp only [Option.toList_none, List.append_nil] at ha ⊢
            have hd := h.dur
            simp only [recsOf, hc] at hd
            obtain ⟨t1, t2, t3, t4⟩ := hd.log.take hq
            rw [hq] at c3
            have hqq := h.queue
            rw [hq] at hqq
            have hp : Past F m { x.s with t := { x.s.t with queue := ds } } es := by
              have := h.past.sched (order := order) (o := .flush 1) (e := none) hm.model hm.pk rfl (by intro n fs l; simp)
                (by simpa using ha.fair)
              simpa [hq] using this
            have hlen : ∀ o : Option Rec, o.toList.length ≤ 1 := by
              intro o
              cases o <;> simp
            refine ⟨R, ?_, ?_, h.idle, h.reached, ?_, h.disk, ?_, ?_⟩
            · simp only [t1]; exact hp
            · simp only [t1, recsOf]; exact hd.relog h.past.wf t2 t3 t4
            · intro c hc'
              cases hc'
              simp only [t1, List.length_append]
              simp only [List.length_cons] at c3
              exact ⟨Nat.le_trans (Nat.add_le_add_right (Nat.add_le_add_left (hlen _) _) _) (by omega), c2, by omega⟩
            · simp only [t1]; exact h.ver
            · simp only [t1]; simp only [List.length_cons] at hqq; omega
  | fin =>
    simp only [Many.act]
    cases hc : x.cur with
    | none => simp
    | some c =>
      obtain ⟨n, l, rs⟩ := c
      cases l with
      | succ l => simp
      | zero =>
        obtain ⟨c1, c2, c3⟩ := h.cur _ hc
        have hd := h.dur
        have hleg := h.legal
        simp only [recsOf, hc] at hd hleg
        obtain ⟨w', e1, i1, d1, k1, t1, n1, o1⟩ := commitRecs_idle h.idle (t := x.s.t) (n := n) hleg
        simp only [e1]
        refine ⟨by simpa using bound_bad, ?_⟩
        intro y e hs ha
        obtain ⟨rfl, rfl, b1, b2, b3⟩ := bound_ok (Option.some.inj hs)
        simp only [Option.toList_none, List.append_nil]
        rw [hmod] at d1 k1
        obtain ⟨R', r1, r2, r3, r4⟩ := hd.log.written hm hlim h.ver c2 (by simpa using c1) h.idle i1 h.reached d1 k1 t1 n1 o1 b1
        refine ⟨R', h.past, ?_, i1, r1, (fun c hc' => (by cases hc')), b1, b2, b3⟩
        exact hd.relog h.past.wf r2 r3 r4

theorem Live.acts {F : FloatOps} {order : List (Key × Nat) → List (Key × Nat)} {m : Model} (hm : LifeOk m) {lim : Nat}
    (hlim : lim ≤ 2 ^ 62) : ∀ {as : List Act} {x y : Sys} {es es' : List (Ev Stmt Reply)} {R : Tbl}, Live F m lim x es R →
    acts F order lim as x = some (.ok (y, es')) → Allowed F m (es ++ es') → ∃ R', Live F m lim y (es ++ es') R'
  | [], x, y, es, es', R, h, hs, _ => by
    cases hs
    exact ⟨R, by simpa using h⟩
  | a :: as, x, y, es, es', R, h, hs, ha => by
    rw [Many.acts] at hs
    cases h1 : Many.act F order lim x a with
    | none => rw [h1] at hs; cases hs
    | some r =>
      rw [h1] at hs
      cases r with
      | full => cases hs
      | bad => cases hs
      | ok z =>
        obtain ⟨z, e⟩ := z
        simp only at hs
        cases h2 : Many.acts F order lim as z with
        | none => rw [h2] at hs; cases hs
        | some r =>
          rw [h2] at hs
          cases r with
          | full => cases hs
          | bad => cases hs
          | ok q =>
            obtain ⟨q, es2⟩ := q
            cases hs
            rw [← List.append_assoc] at ha ⊢
            obtain ⟨R1, l1⟩ := (h.act hm hlim a).2 z e h1 ha.left
            exact Live.acts hm hlim l1 h2 ha

/-! ### Shutting down and starting -/

/-- A file that was closed, and what it is restored to. -/
structure Shut (m : Model) (file : Bytes) (w : JW) (T : Tbl) : Prop where
  opens : openJournal batchDecode (Tbl.empty m) file [] = .ok (w, T)
  idle : w.Idle
  reached : Reached batchDecode (Tbl.empty m) w T
  inv : Inv m T
  rest : RInv T
  rq : T.queue = []
  exact : Exact m T
  rvals : Vals TagOk T
  rlegal : ∀ r ∈ T.heap, r.key.uniq = m.pkTag.uniq

theorem shut_close {m : Model} {w : JW} {R : Tbl} (h : w.Idle) (hr : Reached batchDecode (Tbl.empty m) w R)
    (hsz : w.log.disk.length < 2 ^ 62) : ∃ w1 w2, w.close = (w1, .ok ()) ∧
      openJournal batchDecode (Tbl.empty m) w1.log.disk [] = .ok (w2, R) ∧ w2.Idle ∧ Reached batchDecode (Tbl.empty m) w2 R := by
  obtain ⟨w1, e1, i1, d1, k1, t1, n1, o1⟩ := h.commitDriver .closed
  have hl1 : w1.log.disk.length = w.log.disk.length + 64 := by
    rw [d1, List.length_append, Journal.drvBytes, Journal.encode_length]
  have hsc := hr.scroll_closed h e1 (by omega)
  obtain ⟨w2, e2, i2, d2, -⟩ := i1.commitDriver .reopened
  have hl2 : w2.log.disk.length = w1.log.disk.length + 64 := by
    rw [d2, List.length_append, Journal.drvBytes, Journal.encode_length]
  have h0 : w1.knownTxnOffset ≠ 0 := by
    rw [o1, i1.good.cur]; have := i1.hdr; simp only [HEADER] at this; omega
  refine ⟨w1, w2, e1, ?_, i2, hr.reopen h e1 e2 (by omega)⟩
  unfold openJournal
  rw [hsc]
  simp only [Res.bind]
  rw [JW.new_of_reader i1 h0, e2]

theorem Live.shutdown {F : FloatOps} {m : Model} (hm : LifeOk m) {lim : Nat} (hlim : lim ≤ 2 ^ 62) {x : Sys}
    {es : List (Ev Stmt Reply)} {R : Tbl} (h : Live F m lim x es R) (hq : Quiet x) (hf : Fair F m es) :
    Batch.shutdown lim ⟨x.w, x.s.t⟩ = .full ∨
      ∃ file w T, Batch.shutdown lim ⟨x.w, x.s.t⟩ = .ok file ∧ Shut m file w T ∧ abs T = abs x.s.t := by
  have hd := h.dur
  simp only [recsOf, hq.1] at hd
  have hmod := hd.log.model
  have hfin : final x.s.t [] R = vw x.s.t := by
    funext k
    refine hd.eq k ?_
    intro n d hn
    rw [hq.2 n] at hn
    cases hn
  have hinv := (h.past.now hf).1
  have finish : ∀ {w : JW} {R : Tbl}, w.Idle → Reached batchDecode (Tbl.empty m) w R → w.log.disk.length < lim →
      Log m { x.s.t with queue := [] } [] R → vw R = vw x.s.t →
      ∃ w1 w2, w.close = (w1, .ok ()) ∧ Shut m w1.log.disk w2 R ∧ abs R = abs x.s.t := by
    intro w R hi hr hsz hl hv
    obtain ⟨w1, w2, e1, e2, i2, r2⟩ := shut_close hi hr (by omega)
    obtain ⟨s1, s2⟩ := restored_same hm.mok hinv hl.rest hl.rmodel hl.rlegal hl.exact hv
    exact ⟨w1, w2, e1, ⟨e2, i2, r2, s1, hl.rest, hl.rq, hl.exact, hl.rvals, hl.rlegal⟩, s2⟩
  rw [Batch.shutdown, flushSome]
  simp only [Nat.min_self]
  by_cases hz : x.s.t.queue.length = 0
  · rw [if_pos hz]
    have hnil : x.s.t.queue = [] := List.length_eq_zero_iff.1 hz
    have hsame : ({ x.s.t with queue := [] } : Tbl) = x.s.t := by rw [← hnil]
    obtain ⟨w1, w2, e1, e2, e3⟩ := finish h.idle h.reached h.disk (by rw [hsame]; exact hd.log) (by
      rw [← hfin, final, hnil]; rfl)
    exact .inr ⟨w1.log.disk, w2, R, by simp only [Run.bind, e1], e2, e3⟩
  · rw [if_neg hz]
    obtain ⟨t1, t2, t3⟩ := hd.log.drain x.s.t.queue.length (Nat.le_refl _)
    simp only [List.drop_length, List.nil_append] at t1 t2 t3
    have hleg : ∀ e ∈ (drain x.s.t.queue.length x.s.t).2, e.key.uniq ≠ .illegal := by
      intro e he
      rw [(t2.eok e he).key]
      exact hm.mok.uniq
    obtain ⟨w', e1, i1, d1, k1, b1, n1, o1⟩ := commitBatch_idle h.idle (Nat.le_refl _) hleg
    rw [e1]
    simp only [t1, check]
    by_cases hfull : w'.log.disk.length < lim ∧ x.s.t.ver < lim
    · rw [if_pos hfull]
      rw [hmod] at d1 k1
      obtain ⟨R', r1, r2, r3, _⟩ := t2.written hm hlim h.ver h.queue (drain_length _ _) h.idle i1 h.reached d1 k1 b1 n1 o1 hfull.1
      obtain ⟨w1, w2, e1, e2, e3⟩ := finish i1 r1 hfull.1 r2 (by
        rw [← hfin, ← t3, ← r3]; rfl)
      exact .inr ⟨w1.log.disk, w2, R', by simp only [Run.bind, e1], e2, e3⟩
    · rw [if_neg hfull]
      exact .inl rfl

theorem Shut.live {F : FloatOps} {m : Model} (hm : LifeOk m) {lim : Nat} {file : Bytes} {w : JW} {T : Tbl} (h : Shut m file w T)
    (ha : Ahead T) (hd : w.log.disk.length < lim) (hv : T.ver < lim) {es : List (Ev Stmt Reply)}
    (hs : SRun F m fresh es ⟨abs T, fun _ => .idle⟩) (ho : ∀ n, Many.opens es n = none) :
    Live F m lim (.open w T) es T := by
  have hlog : Log m T [] T := by
    refine ⟨hm.mok, h.inv.model, h.inv.model, h.rest, h.rq, h.exact, h.rvals, h.rlegal, ?_, by rw [h.rq]; simp, by rw [h.rq]; simp,
      by simp, ?_, by simp, by simp, by rw [h.rq]; simp, by rw [h.rq]; simp, by simp⟩
    · intro r hr
      obtain ⟨e1, cs, e2, e3⟩ := h.exact r hr
      refine ⟨h.rlegal r hr, e1, ?_, h.rvals r hr⟩
      rw [e3]
      exact (zip_foldl hm.mok.others_nodup cs (fun _ => none) (by simp) e2.symm).2 m.pk (by simp [others])
    · intro k c v hk
      rcases h.rest.lookup k with ⟨_, h2⟩ | ⟨i, r, h1, h2, h3⟩
      · rw [h2] at hk; cases hk
      · rw [h3] at hk
        cases hk
        exact ha k i r h1 h2
  refine ⟨Past.begin h.inv hs, ?_, h.idle, h.reached, (fun c hc => (by cases hc)), hd, hv, by show T.queue.length < lim; rw [h.rq]; simp; omega⟩
  refine ⟨hlog, ha, fun n => ho n, ?_, ?_, ?_, ?_, ?_, ?_, ?_⟩
  · intro n n' st st' _ h1
    rw [ho n] at h1
    cases h1
  · intro k _
    show final T [] T k = vw T k
    rw [final, h.rq]
    rfl
  all_goals
    intro n
    intros
    simp_all [Sys.open, St.start]

theorem Live.closed {F : FloatOps} {m : Model} {lim : Nat} {x : Sys} {es : List (Ev Stmt Reply)} {R : Tbl}
    (h : Live F m lim x es R) (hq : Quiet x) : ∀ n, Many.opens es n = none := by
  intro n
  have := h.dur.pos n
  rw [hq.2 n] at this
  exact this

theorem Began.live {F : FloatOps} {order : List (Key × Nat) → List (Key × Nat)} {m : Model} (hm : LifeOk m) {lim : Nat}
    (hlim : lim ≤ 2 ^ 62) {hdr : Bytes} (hh : hdr.length = HEADER) (hlo : HEADER < lim) {x : Sys} {es : List (Ev Stmt Reply)}
    (h : Began F order lim m hdr x es) (ha : Allowed F m es) : ∃ R, Live F m lim x es R := by
  induction h with
  | @first w hc =>
    obtain ⟨w', e1, i1, d1, r1⟩ := Journal.create_idle hh
    rw [hc] at e1
    cases e1
    refine ⟨Tbl.empty m, ?_⟩
    have hlog : Log m (Tbl.empty m) [] (Tbl.empty m) := by
      refine ⟨hm.mok, rfl, rfl, ⟨List.nodup_nil, by simp [Tbl.empty]⟩, rfl, ?_, ?_, ?_, ?_, ?_, ?_, ?_, ?_, ?_, ?_, ?_, ?_, ?_⟩ <;>
        simp [Tbl.empty, Exact, Vals, vw, kget]
    have hinv : Inv m (Tbl.empty m) := ⟨rfl, List.nodup_nil, by simp [Tbl.empty]⟩
    have habs : abs (Tbl.empty m) = fun _ => none := by funext k; simp [abs, Tbl.empty, kget]
    refine ⟨Past.begin hinv (by rw [habs]; exact .refl _), ?_, i1, r1 _ _ _, (fun c hc => (by cases hc)), ?_, ?_, ?_⟩
    · refine ⟨hlog, ?_, ?_, ?_, ?_, ?_, ?_, ?_, ?_, ?_⟩
      · intro k i r hk; simp [Sys.open, St.start, Tbl.empty, kget] at hk
      · intro n; rfl
      · intro n n' st st' _ h1; cases h1
      · intro k _; rfl
      all_goals
        intro n
        intros
        simp_all [Sys.open, St.start]
    · show w.log.disk.length < lim; rw [d1, hh]; exact hlo
    · show 0 < lim; omega
    · show 0 < lim; omega
  | @next x y as es es' file v hb hs hq hd ho hah ih =>
    obtain ⟨R, l⟩ := ih ha.left
    obtain ⟨R1, l1⟩ := l.acts hm hlim hs ha
    rcases l1.shutdown hm hlim hq ha.fair with e | ⟨f, w, T, e, sh, ab⟩
    · rw [hd] at e; cases e
    · rw [hd] at e
      cases e
      rw [start, sh.opens] at ho
      simp only [check] at ho
      split at ho
      · rename_i hc
        cases ho
        refine ⟨T, sh.live hm hah hc.1 hc.2 ?_ (l1.closed hq)⟩
        rw [ab]
        exact l1.past.rest hq.2
      · cases ho

/-- **C78 (partial).** Clients that send statements at the same time, batches that are written meanwhile, and clean restarts: all
that the clients see in all sessions together can be seen of a map from keys to rows to which the statements are applied one
after the other, each at an instant between its sending and its answer; and opening the file once more gives exactly the rows of
this map. The statements are as in C31 and C32, without `SELECT ALL`; no two are open at the same time of which one deletes the
row that the other one inserts or updates; and the version counter is ahead of the rows after each restart. Missing (and false,
see below): the other statements, and counters that are behind. -/
theorem C78_durable_partial {F : FloatOps} {order : List (Key × Nat) → List (Key × Nat)} {m : Model} (hm : LifeOk m) {lim : Nat}
    (hlim : lim ≤ 2 ^ 62) {hdr : Bytes} (hh : hdr.length = HEADER) (hlo : HEADER < lim) {x y : Sys} {as : List Act}
    {es es' : List (Ev Stmt Reply)} {file : Bytes} (hb : Began F order lim m hdr x es)
    (hs : acts F order lim as x = some (.ok (y, es'))) (hq : Quiet y) (hd : shutdown lim ⟨y.w, y.s.t⟩ = .ok file)
    (ha : Allowed F m (es ++ es')) :
    ∃ A, SRun F m fresh (es ++ es') ⟨A, fun _ => .idle⟩ ∧
      ∃ w T, openJournal batchDecode (Tbl.empty m) file [] = .ok (w, T) ∧ abs T = A := by
  obtain ⟨R, l⟩ := hb.live hm hlim hh hlo ha.left
  obtain ⟨R1, l1⟩ := l.acts hm hlim hs ha
  rcases l1.shutdown hm hlim hq ha.fair with e | ⟨f, w, T, e, sh, ab⟩
  · rw [hd] at e; cases e
  · rw [hd] at e
    cases e
    exact ⟨abs y.s.t, l1.past.rest hq.2, w, T, sh.opens, ab⟩

/-- **C78 (partial).** In the same situation nothing that can happen fails, at any time, except that the file or a counter
becomes full; neither does a shutdown or the start after it. -/
theorem C78_never_fails_partial {F : FloatOps} {order : List (Key × Nat) → List (Key × Nat)} {m : Model} (hm : LifeOk m) {lim : Nat}
    (hlim : lim ≤ 2 ^ 62) {hdr : Bytes} (hh : hdr.length = HEADER) (hlo : HEADER < lim) {x y : Sys} {as : List Act}
    {es es' : List (Ev Stmt Reply)} (hb : Began F order lim m hdr x es)
    (hs : acts F order lim as x = some (.ok (y, es'))) (ha : Allowed F m (es ++ es')) :
    (∀ a, act F order lim y a ≠ some .bad) ∧
      (Quiet y → shutdown lim ⟨y.w, y.s.t⟩ ≠ .bad ∧ ∀ file, shutdown lim ⟨y.w, y.s.t⟩ = .ok file → start lim m file ≠ .bad) := by
  obtain ⟨R, l⟩ := hb.live hm hlim hh hlo ha.left
  obtain ⟨R1, l1⟩ := l.acts hm hlim hs ha
  refine ⟨fun a => (l1.act hm hlim a).1, fun hq => ?_⟩
  rcases l1.shutdown hm hlim hq ha.fair with e | ⟨f, w, T, e, sh, ab⟩
  · exact ⟨by rw [e]; simp, fun file hf => by rw [e] at hf; cases hf⟩
  · refine ⟨by rw [e]; simp, fun file hf => ?_⟩
    rw [e] at hf
    cases hf
    rw [start, sh.opens]
    simp only [check]
    split <;> simp

/-! ### Checks for examples -/

/-- The row that a statement may change. -/
def touchKey (m : Model) : Stmt → Option Key
  | .insert d => (Dml.assoc (Dml.pairs m.fields d) m.pk).map Dml.keyOfCell
  | .update _ w => resolveWhere m w
  | .delete w => resolveWhere m w
  | _ => none

theorem touchKey_spec {m : Model} {st : Stmt} {k : Key} (h : Touches m st k) : touchKey m st = some k := by
  cases st with
  | insert d => obtain ⟨v, h1, rfl⟩ := h; simp [touchKey, h1]
  | update as w => exact whereKey_iff.2 h
  | delete w => exact whereKey_iff.2 h
  | select fs w => exact h.elim
  | selectAll fs l => exact h.elim

def clashB (m : Model) (a b : Stmt) : Bool :=
  isDel a != isDel b && (touchKey m a).isSome && touchKey m a == touchKey m b

theorem clashB_spec {m : Model} {a b : Stmt} (h : Clash m a b) : clashB m a b = true := by
  obtain ⟨k, h1, h2, h3⟩ := h
  simp [clashB, touchKey_spec h1, touchKey_spec h2, h3]

def apartB (m : Model) : List (Nat × Stmt) → List (Ev Stmt Reply) → Bool
  | _, [] => true
  | f, .call n st :: es => f.all (fun x => !clashB m st x.2) && apartB m ((n, st) :: f) es
  | f, .ret n _ :: es => apartB m (f.filter fun x => x.1 ≠ n) es

theorem apartB_spec {m : Model} : ∀ {es : List (Ev Stmt Reply)} {f : List (Nat × Stmt)} {g : Nat → Option Stmt},
    (∀ n st, g n = some st → (n, st) ∈ f) → apartB m f es = true → ∀ pre n st post, es = pre ++ .call n st :: post →
    ∀ n' st', pre.foldl openStep g n' = some st' → ¬ Clash m st st'
  | [], _, _, _, _, pre, n, st, post, he => by cases pre <;> cases he
  | .call x s :: es, f, g, hg, h, pre, n, st, post, he => by
    simp only [apartB, Bool.and_eq_true, List.all_eq_true] at h
    intro n' st' ho
    cases pre with
    | nil =>
      cases he
      intro hc
      have := h.1 _ (hg _ _ ho)
      rw [clashB_spec hc] at this
      cases this
    | cons e pre =>
      cases he
      refine apartB_spec ?_ h.2 pre n st post rfl n' st' ho
      intro a b hab
      by_cases hax : a = x
      · subst hax; simp only [openStep, upd_same, Option.some.injEq] at hab; simp [hab]
      · simp only [openStep, upd_other _ _ hax] at hab; exact List.mem_cons_of_mem _ (hg a b hab)
  | .ret x r :: es, f, g, hg, h, pre, n, st, post, he => by
    simp only [apartB] at h
    intro n' st' ho
    cases pre with
    | nil => cases he
    | cons e pre =>
      cases he
      refine apartB_spec ?_ h pre n st post rfl n' st' ho
      intro a b hab
      by_cases hax : a = x
      · subst hax; simp only [openStep, upd_same, reduceCtorEq] at hab
      · simp only [openStep, upd_other _ _ hax] at hab
        simp [hg a b hab, hax]

/-- Events of statements that were sent are those of the actions. -/
theorem acts_calls {F : FloatOps} {order : List (Key × Nat) → List (Key × Nat)} {lim : Nat} : ∀ {as : List Act} {x y : Sys}
    {es : List (Ev Stmt Reply)}, acts F order lim as x = some (.ok (y, es)) → ∀ n st, .call n st ∈ es → .call n st ∈ as
  | [], x, y, es, hs, n, st, hc => by cases hs; cases hc
  | a :: as, x, y, es, hs, n, st, hc => by
    rw [acts] at hs
    split at hs
    · cases hs
    · cases hs
    · cases hs
    · rename_i z e h1
      split at hs
      · rename_i q es2 h2
        cases hs
        rcases List.mem_append.1 hc with hc | hc
        · have : ∀ o, client F order lim x o = some (.ok (z, e)) → o = .call n st := by
            intro o ho
            simp only [client, Option.map_eq_some_iff] at ho
            obtain ⟨⟨s', e'⟩, e1, e2⟩ := ho
            obtain ⟨_, rfl, _⟩ := bound_ok e2
            cases o with
            | flush n => cases e1; cases hc
            | go n =>
              simp only [Dml.Par.sched, Option.map_eq_some_iff] at e1
              obtain ⟨s1, _, e3⟩ := e1
              cases e3; cases hc
            | call a b =>
              simp only [Dml.Par.sched] at e1
              split at e1
              · cases e1; simp at hc; rw [hc.1, hc.2]
              · cases e1
            | ret a =>
              simp only [Dml.Par.sched] at e1
              split at e1
              · cases e1; simp at hc
              · cases e1
          cases a with
          | call a b => cases this _ h1; simp
          | go a => cases this _ h1
          | ret a => cases this _ h1
          | begin k =>
            simp only [act] at h1
            repeat' split at h1
            all_goals (cases h1; try cases hc)
          | take =>
            simp only [act] at h1
            repeat' split at h1
            all_goals (cases h1; try cases hc)
          | fin =>
            simp only [act] at h1
            repeat' split at h1
            all_goals first
              | (cases h1; done)
              | (obtain ⟨_, rfl, _⟩ := bound_ok (Option.some.inj h1); cases hc)
        · exact List.mem_cons_of_mem _ (acts_calls h2 n st hc)
      · cases hs
      · cases hs
      · cases hs

theorem SRun.sent {F : FloatOps} {m : Model} {es : List (Ev Stmt Reply)} {a b : ASt ATable Stmt Reply} (h : SRun F m a es b)
    (ha : ∀ n, a.thr n = .idle) : ∀ n st, b.thr n = .pend st → .call n st ∈ es := by
  induction h with
  | refl => intro n st hn; rw [ha n] at hn; cases hn
  | @tail es b o c _ hs ih =>
    intro n st hn
    cases hs with
    | @call x s _ =>
      by_cases hx : n = x
      · subst hx; simp only [upd_same, AThr.pend.injEq] at hn; simp [hn]
      · simp only [upd_other _ _ hx] at hn; exact List.mem_append_left _ (ih n st hn)
    | @lin x s B r _ _ =>
      by_cases hx : n = x
      · subst hx; simp only [upd_same, reduceCtorEq] at hn
      · simp only [upd_other _ _ hx] at hn; exact List.mem_append_left _ (ih n st hn)
    | @ret x r _ =>
      by_cases hx : n = x
      · subst hx; simp only [upd_same, reduceCtorEq] at hn
      · simp only [upd_other _ _ hx] at hn; exact List.mem_append_left _ (ih n st hn)

/-- Statements that are fine whatever the table has. -/
theorem allowed_of {F : FloatOps} {m : Model} (hm : ModelOk m) {es : List (Ev Stmt Reply)} (ha : apartB m [] es = true)
    (hs : ∀ n st, .call n st ∈ es → st.Simple m ∧ StmtTags st ∧ ∀ fs l, st ≠ .selectAll fs l) : Allowed F m es where
  apart := apartB_spec (g := fun _ => none) (by simp) ha
  fair := by
    rintro pre post rfl a hr n st hn
    have := (hs n st (List.mem_append_left _ (hr.sent (fun _ => rfl) n st hn))).1
    exact (Dml.fine_simple (F := F) hm (ss := [st]) (by simpa using this)).1
  tagged := fun n st h => (hs n st h).2.1
  noAll := fun n fs l h => (hs n _ h).2.2 fs l rfl

theorem step_th {F : FloatOps} {order : List (Key × Nat) → List (Key × Nat)} {s s' : St} {n : Nat}
    (h : Dml.Par.step F order s n = some s') : ∃ p, s'.th = upd s.th n p := by
  unfold Dml.Par.step at h
  repeat' split at h
  all_goals first
    | (cases h; done)
    | (cases h; exact ⟨_, rfl⟩)
    | (cases h; simp only [look, St.at]; split <;> first | exact ⟨_, rfl⟩ | (split <;> exact ⟨_, rfl⟩))

/-- Only these clients do something. -/
def onlyB (k : Nat) : Act → Bool
  | .call n _ => decide (n < k)
  | .go n => decide (n < k)
  | .ret n => decide (n < k)
  | _ => true

theorem client_th {F : FloatOps} {order : List (Key × Nat) → List (Key × Nat)} {lim : Nat} {x y : Sys} {o : Sch}
    {e : Option (Ev Stmt Reply)} (h : client F order lim x o = some (.ok (y, e))) :
    (∃ n p st, (o = .call n st ∨ o = .go n ∨ o = .ret n) ∧ y.s.th = upd x.s.th n p) ∨ ∃ n, o = .flush n := by
  simp only [client, Option.map_eq_some_iff] at h
  obtain ⟨⟨s', e'⟩, e1, e2⟩ := h
  obtain ⟨rfl, rfl, _⟩ := bound_ok e2
  cases o with
  | flush n => exact .inr ⟨n, rfl⟩
  | go n =>
    simp only [Dml.Par.sched, Option.map_eq_some_iff] at e1
    obtain ⟨s1, h1, e3⟩ := e1
    cases e3
    obtain ⟨p, hp⟩ := step_th h1
    exact .inl ⟨n, p, .delete [], .inr (.inl rfl), hp⟩
  | call a b =>
    simp only [Dml.Par.sched] at e1
    cases hp : x.s.th a <;> rw [hp] at e1 <;> cases e1
    exact .inl ⟨a, _, b, .inl rfl, rfl⟩
  | ret a =>
    simp only [Dml.Par.sched] at e1
    cases hp : x.s.th a <;> rw [hp] at e1 <;> cases e1
    exact .inl ⟨a, _, .delete [], .inr (.inr rfl), rfl⟩

theorem act_th {F : FloatOps} {order : List (Key × Nat) → List (Key × Nat)} {lim k : Nat} {x y : Sys} {a : Act}
    {e : Option (Ev Stmt Reply)} (h : act F order lim x a = some (.ok (y, e))) (hk : onlyB k a = true) {n : Nat} (hn : k ≤ n) :
    y.s.th n = x.s.th n := by
  have hc : ∀ o, client F order lim x o = some (.ok (y, e)) → (∀ a st, (o = .call a st ∨ o = .go a ∨ o = .ret a) → a < k) →
      (∀ a, o ≠ .flush a) → y.s.th n = x.s.th n := by
    intro o ho hl hfl
    rcases client_th ho with ⟨a, p, st, h1, h2⟩ | ⟨a, h1⟩
    · have := hl a st h1
      rw [h2, upd_other _ _ (by omega)]
    · exact absurd h1 (hfl a)
  cases a with
  | call a b => exact hc _ h (by simpa [onlyB] using hk) (by simp)
  | go a => exact hc _ h (by intro b st hb; simp [onlyB] at hk hb; omega) (by simp)
  | ret a => exact hc _ h (by intro b st hb; simp [onlyB] at hk hb; omega) (by simp)
  | begin b =>
    simp only [act] at h
    repeat' split at h
    all_goals (cases h; try rfl)
  | take =>
    simp only [act] at h
    repeat' split at h
    all_goals (cases h; try rfl)
  | fin =>
    simp only [act] at h
    repeat' split at h
    all_goals first
      | (cases h; done)
      | (obtain ⟨rfl, _⟩ := bound_ok (Option.some.inj h); rfl)

theorem acts_th {F : FloatOps} {order : List (Key × Nat) → List (Key × Nat)} {lim k : Nat} : ∀ {as : List Act} {x y : Sys}
    {es : List (Ev Stmt Reply)}, acts F order lim as x = some (.ok (y, es)) → as.all (onlyB k) = true → ∀ n, k ≤ n →
    y.s.th n = x.s.th n
  | [], x, y, es, hs, _, n, _ => by cases hs; rfl
  | a :: as, x, y, es, hs, hk, n, hn => by
    rw [acts] at hs
    simp only [List.all_cons, Bool.and_eq_true] at hk
    split at hs
    · cases hs
    · cases hs
    · cases hs
    · rename_i z e h1
      split at hs
      · rename_i q es2 h2
        cases hs
        rw [acts_th h2 hk.2 n hn]
        exact act_th h1 hk.1 hn
      · cases hs
      · cases hs
      · cases hs

def isIdle : Pos → Bool
  | .idle => true
  | _ => false

/-- No statement of the clients below `k` is open, and no batch is being written. -/
def quietB (k : Nat) (x : Sys) : Bool := x.cur.isNone && (List.range k).all fun n => isIdle (x.s.th n)

theorem quietB_spec {F : FloatOps} {order : List (Key × Nat) → List (Key × Nat)} {lim k : Nat} {as : List Act} {y : Sys} {w : JW}
    {t : Tbl} {es : List (Ev Stmt Reply)} (hs : acts F order lim as (.open w t) = some (.ok (y, es)))
    (hk : as.all (onlyB k) = true) (hq : quietB k y = true) : Quiet y := by
  simp only [quietB, Bool.and_eq_true, Option.isNone_iff_eq_none, List.all_eq_true, List.mem_range] at hq
  refine ⟨hq.1, fun n => ?_⟩
  by_cases hn : n < k
  · have := hq.2 n hn
    cases hp : y.s.th n <;> rw [hp] at this <;> first | rfl | cases this
  · rw [acts_th hs hk n (by omega)]
    rfl

/-! ### What is false -/

/-- The last thing that happened: client 0 was shown the row of this key. -/
def lastRow (m : Model) (k : Key) (es : List (Ev Stmt Reply)) : Bool :=
  match es.reverse with
  | .ret 0 (.row _) :: .call 0 (.select _ w) :: _ => resolveWhere m w == some k
  | _ => false

theorem SRun.snoc {F : FloatOps} {m : Model} {a c : ASt ATable Stmt Reply} {es : List (Ev Stmt Reply)} {e : Ev Stmt Reply}
    (h : SRun F m a (es ++ [e]) c) : ∃ b o, SStep F m b o c ∧ ((o = some e ∧ SRun F m a es b) ∨ (o = none ∧ SRun F m a (es ++ [e]) b)) := by
  generalize hes : es ++ [e] = es' at h
  cases h with
  | refl => simp at hes
  | @tail es1 b o _ h1 h2 =>
    refine ⟨b, o, h2, ?_⟩
    cases o with
    | none => right; simp only [Option.toList_none, List.append_nil] at hes ⊢; exact ⟨trivial, h1⟩
    | some x =>
      left
      simp only [Option.toList_some] at hes
      obtain ⟨r1, r2⟩ := List.append_inj' hes rfl
      cases r2
      subst r1
      exact ⟨rfl, h1⟩

/-- Then the row is there, if nobody has an open statement. -/
theorem lastRow_spec {F : FloatOps} {m : Model} {k : Key} {es : List (Ev Stmt Reply)} (h : lastRow m k es = true) {A : ATable}
    (hr : SRun F m fresh es ⟨A, fun _ => .idle⟩) : A k ≠ none := by
  unfold lastRow at h
  split at h
  · rename_i cs fs w rest he
    have hes : es = rest.reverse ++ [.call 0 (.select fs w)] ++ [.ret 0 (.row cs)] := by
      have := congrArg List.reverse he
      simpa using this
    rw [hes] at hr
    simp only [beq_iff_eq] at h
    obtain ⟨b, o, s1, h1⟩ := hr.snoc
    rcases h1 with ⟨rfl, r1⟩ | ⟨rfl, r1⟩
    · generalize hc : (⟨A, fun _ => .idle⟩ : ASt ATable Stmt Reply) = c at s1
      cases s1 with
      | ret hd =>
        have hb : ∀ n, n ≠ 0 → b.thr n = .idle := by
          intro n hn
          have := congrFun (congrArg ASt.thr hc) n
          simp only [upd_other _ _ hn] at this
          exact this.symm
        obtain ⟨c, o, s2, h2⟩ := r1.snoc
        have hA : b.q = A := (congrArg ASt.q hc).symm
        rcases h2 with ⟨rfl, r2⟩ | ⟨rfl, r2⟩
        · cases s2 with
          | call _ => simp at hd
        · cases s2 with
          | @lin n st B r hp hst =>
            by_cases hn : n = 0
            · subst hn
              simp only [upd_same, AThr.done.injEq] at hd
              subst hd
              obtain ⟨d, o, s3, h3⟩ := r2.snoc
              have hsel : st = .select fs w := by
                rcases h3 with ⟨rfl, r3⟩ | ⟨rfl, r3⟩
                · cases s3 with
                  | call _ => simp at hp; exact hp.symm
                · cases s3 with
                  | @lin n' st' B' r' hp' hst' =>
                    by_cases hn : n' = 0
                    · subst hn; simp at hp
                    · have := hb n' hn
                      simp [hn] at this
              subst hsel
              simp only [Reply.norm] at hst
              simp only at hA
              subst hA
              cases hst with
              | select hw hk _ =>
                have := whereKey_iff.2 hw
                rw [h] at this
                cases this
                rw [hk]
                simp
            · have := hb n hn
              simp at this
    · generalize hc : (⟨A, fun _ => .idle⟩ : ASt ATable Stmt Reply) = c at s1
      cases s1 with
      | @lin n st B r hp hst =>
        have := congrFun (congrArg ASt.thr hc) n
        simp at this
  · cases h

/-- One session with a new model. -/
def one (as : List Act) : Option (Run (Sys × List (Ev Stmt Reply))) :=
  acts exF id 100000 as (.open (JW.create exHdr []).1 (Tbl.empty exModel))

/-- A statement of one client from the beginning to the end. -/
def all (n : Nat) (st : Stmt) (k : Nat) : List Act := .call n st :: List.replicate k (.go n) ++ [.ret n]

/-- An INSERT takes its version, a DELETE of the same key takes the next one and removes the old row, the INSERT succeeds; then
SELECT shows the row. -/
def exLost : List Act :=
  all 0 (exRow 1 .null) 4 ++ [.call 1 (exRow 1 .null), .go 1, .go 1, .call 2 exDel1, .go 2, .go 2, .go 2, .go 2, .ret 2, .go 1, .go 1, .ret 1] ++
    all 0 (.select (some ["id", "n"]) (whereId 1)) 2

def lostB : Bool :=
  exLost.all (onlyB 3) &&
  match one exLost with
  | some (.ok (y, es)) => lastRow exModel (.uint 1) es && quietB 3 y &&
    match shutdown 100000 ⟨y.w, y.s.t⟩ with
    | .ok file =>
      match openJournal batchDecode (Tbl.empty exModel) file [] with
      | .ok (_, T) => (kget T.idx (.uint 1)).isNone
      | _ => false
    | _ => false
  | _ => false

theorem exSimple {n : Nat} {st : Stmt} (h : .call n st ∈ exLost) :
    st.Simple exModel ∧ StmtTags st ∧ ∀ fs l, st ≠ .selectAll fs l := by
  simp only [exLost, all, exDel1, exRow, List.replicate, List.cons_append, List.nil_append, List.append_assoc, List.mem_cons, List.not_mem_nil, or_false,
    reduceCtorEq, false_or, Act.call.injEq] at h
  rcases h with ⟨_, rfl⟩ | ⟨_, rfl⟩ | ⟨_, rfl⟩ | ⟨_, rfl⟩ <;>
    simp [Stmt.Simple, Dml.InsData.Wf, Cell.noNullInside, StmtTags, InsData.Tags, TagOk, Tag.cls]

/-- **C78 is violated.** INSERT and DELETE of one key at the same time, with statements that are fine otherwise: the last answer
shows the new row, so the row is in every map that explains the answers; after the restart it is gone. -/
theorem C78_violated :
    ∃ w as y es file v T, JW.create exHdr [] = (w, .ok ()) ∧ acts exF id 100000 as (.open w (Tbl.empty exModel)) = some (.ok (y, es)) ∧
      Quiet y ∧ shutdown 100000 ⟨y.w, y.s.t⟩ = .ok file ∧ openJournal batchDecode (Tbl.empty exModel) file [] = .ok (v, T) ∧
      Fair exF exModel es ∧ Tagged es ∧ NoAll es ∧
      ∀ A, SRun exF exModel fresh es ⟨A, fun _ => .idle⟩ → abs T ≠ A := by
  have h : lostB = true := by decide +kernel
  simp only [lostB, Bool.and_eq_true] at h
  obtain ⟨h0, h⟩ := h
  split at h
  · rename_i y es hr
    simp only [Bool.and_eq_true] at h
    obtain ⟨⟨h1, h2⟩, h3⟩ := h
    split at h3
    · rename_i file hf
      split at h3
      · rename_i v T ht
        have hs : ∀ n st, .call n st ∈ es → st.Simple exModel ∧ StmtTags st ∧ ∀ fs l, st ≠ .selectAll fs l :=
          fun n st hc => exSimple (acts_calls hr n st hc)
        obtain ⟨w, e1, _⟩ := Journal.create_idle (hdr := exHdr) rfl
        refine ⟨w, exLost, y, es, file, v, T, e1, ?_, quietB_spec hr h0 h2, hf, ht, ?_, fun n st hc => (hs n st hc).2.1,
          fun n fs l hc => (hs n _ hc).2.2 fs l rfl, ?_⟩
        · rw [one, e1] at hr; exact hr
        · rintro pre post rfl a ha n st hn
          have := (hs n st (List.mem_append_left _ (ha.sent (fun _ => rfl) n st hn))).1
          exact (Dml.fine_simple (F := exF) exModel_ok (ss := [st]) (by simpa using this)).1
        · rintro A hA rfl
          refine lastRow_spec h1 hA ?_
          rw [Option.isNone_iff_eq_none] at h3
          simp [abs, h3]
      · cases h3
    · cases h3
  · cases h

/-! ### Example -/

/-- Two INSERTs and an UPDATE at the same time, while batches are written; then a DELETE. -/
def exDo : List Act :=
  [.call 0 (exRow 1 .null), .call 1 (exRow 2 .null), .go 0, .go 1, .go 1, .go 0, .go 0, .go 1, .go 0, .ret 0, .begin 1, .go 1,
   .call 2 exUpd1, .go 2, .take, .go 2, .fin, .ret 1, .call 1 (exRow 1 .null), .go 1, .go 1, .go 2, .go 1, .ret 2, .ret 1] ++ all 0 (.delete (whereId 2)) 4

/-- Two SELECTs. -/
def exAsk : List Act :=
  [.call 0 (.select (some ["id", "n"]) (whereId 1)), .call 1 (.select none (whereId 2)), .go 1, .go 0, .go 0, .ret 1, .ret 0]

def aheadB (t : Tbl) : Bool := t.idx.all fun e =>
  match t.heap[e.2]? with
  | some r => decide (r.revised < t.ver)
  | none => true

theorem aheadB_spec {t : Tbl} (h : aheadB t = true) : Ahead t := by
  intro k i r hk hr
  have := List.all_eq_true.1 h _ (kget_mem hk)
  simpa [hr] using this

/-- What the clients are answered. -/
def answers (es : List (Ev Stmt Reply)) : List (Nat × List Bytes) :=
  es.filterMap fun e =>
    match e with
    | .ret n r => some (n, showReply r)
    | _ => none

def exAnswers : List (Nat × List Bytes) :=
  [(0, []), (1, []), (2, []), (1, showReply (.err .duplicate)), (0, []), (1, showReply (.err .rowNotFound)),
   (0, showReply (.row [.uint .uint64 1, .uint .uint8 7]))]

def doB : Bool :=
  exDo.all (onlyB 3) && exAsk.all (onlyB 3) &&
  match one exDo with
  | some (.ok (y, es)) => quietB 3 y &&
    match shutdown 100000 ⟨y.w, y.s.t⟩ with
    | .ok file =>
      match start 100000 exModel file with
      | .ok (v, ()) => aheadB v.t &&
        match acts exF id 100000 exAsk (.open v.w v.t) with
        | some (.ok (z, es')) => quietB 3 z && apartB exModel [] (es ++ es') && answers (es ++ es') == exAnswers &&
          match shutdown 100000 ⟨z.w, z.s.t⟩ with
          | .ok _ => true
          | _ => false
        | _ => false
      | _ => false
    | _ => false
  | _ => false

theorem exDo_simple {n : Nat} {st : Stmt} (h : .call n st ∈ exDo ++ exAsk) :
    st.Simple exModel ∧ StmtTags st ∧ ∀ fs l, st ≠ .selectAll fs l := by
  simp only [exDo, exAsk, all, exUpd1, exRow, List.replicate, List.cons_append, List.nil_append, List.append_assoc, List.mem_cons,
    List.not_mem_nil, or_false, reduceCtorEq, false_or, Act.call.injEq] at h
  rcases h with ⟨_, rfl⟩ | ⟨_, rfl⟩ | ⟨_, rfl⟩ | ⟨_, rfl⟩ | ⟨_, rfl⟩ | ⟨_, rfl⟩ | ⟨_, rfl⟩ <;>
    first
      | simp [Stmt.Simple, Dml.InsData.Wf, Cell.noNullInside, StmtTags, InsData.Tags, TagOk, Tag.cls]; done
      | refine ⟨⟨by decide, ?_⟩, trivial, by simp⟩
        intro a ha
        simp only [List.mem_cons, List.not_mem_nil, or_false] at ha
        subst ha
        exact ⟨rfl, fun f hf => by cases hf; simp [Fits, ScalarFits, Dml.cellOfLit]⟩

/-- Two sessions for which all conditions of the theorems hold. -/
example : ∃ x es y as es' file, Began exF id 100000 exModel exHdr x es ∧ acts exF id 100000 as x = some (.ok (y, es')) ∧ Quiet y ∧
    shutdown 100000 ⟨y.w, y.s.t⟩ = .ok file ∧ Allowed exF exModel (es ++ es') ∧ answers (es ++ es') = exAnswers := by
  have h : doB = true := by decide +kernel
  simp only [doB, Bool.and_eq_true] at h
  obtain ⟨⟨o1, o2⟩, h⟩ := h
  obtain ⟨w, e1, _⟩ := Journal.create_idle (hdr := exHdr) rfl
  split at h
  · rename_i y es hr
    simp only [Bool.and_eq_true] at h
    obtain ⟨q1, h⟩ := h
    split at h
    · rename_i file hf
      split at h
      · rename_i v hv
        simp only [Bool.and_eq_true] at h
        obtain ⟨ah, h⟩ := h
        split at h
        · rename_i z es' hz
          simp only [Bool.and_eq_true, beq_iff_eq] at h
          obtain ⟨⟨⟨q2, ap⟩, an⟩, h⟩ := h
          split at h
          · rename_i file' hf'
            have hb := Began.first (F := exF) (order := id) (lim := 100000) (m := exModel) e1
            have hr' := hr
            rw [one, e1] at hr'
            have hb2 := hb.next hr' (quietB_spec hr o1 q1) hf hv (aheadB_spec ah)
            rw [List.nil_append] at hb2
            refine ⟨_, es, z, exAsk, es', file', hb2, hz, quietB_spec hz o2 q2, hf', allowed_of exModel_ok ap ?_, an⟩
            intro n st hc
            refine exDo_simple (n := n) ?_
            rcases List.mem_append.1 hc with hc | hc
            · exact List.mem_append_left _ (acts_calls hr n st hc)
            · exact List.mem_append_right _ (acts_calls hz n st hc)
          · cases h
        · cases h
      · cases h
    · cases h
  · cases h

end Verif.Batch.Many
