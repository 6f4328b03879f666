import Verif.Dml.ParAll
import Verif.Base.Forall2
/-!
C57: while `SELECT ALL` reads, no key comes or goes, and every row that it shows was there at some instant.
-/
namespace Verif.Dml.Par
open Verif.Gns (Model fget)
open Verif.Conc (Ev Obj ASt AThr AStep ARun Linearizable upd upd_same upd_other)

/-! ### The latch of the index -/

/-- The statement holds the latch, shared. -/
def Pos.holds : Pos → Prop
  | .insert .. => True
  | .insertV .. => True
  | .delete .. => True
  | .deleteV .. => True
  | .push d => d.kind ≠ .update
  | _ => False

/-- The statement holds the latch exclusively. -/
def Pos.reads : Pos → Prop
  | .reading .. => True
  | _ => False

/-- Who holds the latch is written in it, and it is not held in both ways. -/
structure Latch (th : Nat → Pos) (shared : List Nat) (excl : Bool) : Prop where
  sh : ∀ n, (th n).holds → n ∈ shared
  ex : excl = true → shared = []
  rd : ∀ n, (th n).reads → excl = true
  one : ∀ n k, (th n).reads → (th k).reads → n = k

theorem upd_cases {α : Type} {P : Nat → α → Prop} {f : Nat → α} {n : Nat} {x : α} (h : P n x) (h' : ∀ k, k ≠ n → P k (f k)) (k : Nat) :
    P k (upd f n x k) := by
  by_cases e : k = n
  · subst e; rw [upd_same]; exact h
  · rw [upd_other _ _ e]; exact h' k e

theorem Latch.keep {th : Nat → Pos} {sh : List Nat} {ex : Bool} (h : Latch th sh ex) {n : Nat} {p : Pos}
    (hh : p.holds → (th n).holds) (hr : p.reads → (th n).reads) : Latch (upd th n p) sh ex := by
  have hr' : ∀ k, (upd th n p k).reads → (th k).reads :=
    upd_cases (P := fun k (x : Pos) => x.reads → (th k).reads) hr fun k _ h => h
  refine ⟨upd_cases (P := fun k (x : Pos) => x.holds → k ∈ sh) (fun a => h.sh _ (hh a)) (fun k _ => h.sh k), h.ex,
    fun k a => h.rd k (hr' k a), fun k j a b => h.one k j (hr' k a) (hr' j b)⟩

theorem Latch.release {th : Nat → Pos} {sh : List Nat} {ex : Bool} (h : Latch th sh ex) {n : Nat} {p : Pos}
    (hh : ¬ p.holds) (hr : ¬ p.reads) : Latch (upd th n p) (sh.erase n) ex := by
  have hr' : ∀ k, (upd th n p k).reads → (th k).reads :=
    upd_cases (P := fun k (x : Pos) => x.reads → (th k).reads) (fun a => absurd a hr) fun k _ h => h
  refine ⟨upd_cases (P := fun k (x : Pos) => x.holds → k ∈ sh.erase n) (fun a => absurd a hh) (fun k e a => ?_), fun e => ?_,
    fun k a => h.rd k (hr' k a), fun k j a b => h.one k j (hr' k a) (hr' j b)⟩
  · exact (List.mem_erase_of_ne e).2 (h.sh k a)
  · rw [h.ex e]; rfl

theorem Latch.share {th : Nat → Pos} {sh : List Nat} (h : Latch th sh false) {n : Nat} {p : Pos}
    (hr : ¬ p.reads) : Latch (upd th n p) (n :: sh) false := by
  have hr' : ∀ k, (upd th n p k).reads → (th k).reads :=
    upd_cases (P := fun k (x : Pos) => x.reads → (th k).reads) (fun a => absurd a hr) fun k _ h => h
  exact ⟨upd_cases (P := fun k (x : Pos) => x.holds → k ∈ n :: sh) (fun _ => by simp) (fun k _ a => by simp [h.sh k a]), fun e => (by cases e),
    fun k a => h.rd k (hr' k a), fun k j a b => h.one k j (hr' k a) (hr' j b)⟩

theorem Latch.lock {th : Nat → Pos} (h : Latch th [] false) {n : Nat} {p : Pos} (hh : ¬ p.holds) :
    Latch (upd th n p) [] true := by
  have hr' : ∀ k, (upd th n p k).reads → k = n :=
    upd_cases (P := fun k (x : Pos) => x.reads → k = n) (fun _ => rfl) fun k _ a => by have := h.rd k a; cases this
  exact ⟨upd_cases (P := fun k (x : Pos) => x.holds → k ∈ []) (fun a => absurd a hh) (fun k _ a => h.sh k a), fun _ => rfl,
    fun _ _ => rfl, fun k j a b => (hr' k a).trans (hr' j b).symm⟩

theorem Latch.unlock {th : Nat → Pos} {sh : List Nat} {ex : Bool} (h : Latch th sh ex) {n : Nat} {p : Pos} (hn : (th n).reads)
    (hh : ¬ p.holds) (hr : ¬ p.reads) : Latch (upd th n p) sh false := by
  have hr' : ∀ k, ¬ (upd th n p k).reads :=
    upd_cases (P := fun k (x : Pos) => ¬ x.reads) hr fun k e a => e (h.one k n a hn)
  exact ⟨upd_cases (P := fun k (x : Pos) => x.holds → k ∈ sh) (fun a => absurd a hh) (fun k _ => h.sh k), fun e => (by cases e),
    fun k a => absurd a (hr' k), fun k j a _ => absurd a (hr' k)⟩

/-! ### What a step does -/

/-- What a step of the thread `n` keeps. -/
structure Eff (s : St) (n : Nat) (s' : St) : Prop where
  twf : TWf s'.t
  model : s'.t.model = s.t.model
  latch : Latch s'.th s'.shared s'.excl
  idx : s'.t.idx = s.t.idx ∨ (s.th n).holds
  other : ∀ k, k ≠ n → s'.th k = s.th k

theorem TWf.vq {t : Tbl} (h : TWf t) (v q) : TWf { t with ver := v, queue := q } := ⟨h.nodup, h.rows⟩

theorem TWf.setData {t : Tbl} (h : TWf t) {i : Nat} {r r' : RowObj} (hr : t.heap[i]? = some r) (hk : r'.key = r.key) (x : Data) (v q) :
    TWf (setData { t with ver := v, queue := q } i r' x) := h.set (r' := { r' with cells := x.1, schema := x.2 }) hr hk v q

theorem look_eff {s : St} (ht : TWf s.t) (hl : Latch s.th s.shared s.excl) (n : Nat) (st : Stmt) (w : Where) :
    Eff s n (look s n st w) := by
  have : ∀ p : Pos, ¬ p.holds → ¬ p.reads → Eff s n (s.at n p) := fun p h1 h2 =>
    ⟨ht, rfl, hl.keep (fun a => absurd a h1) (fun a => absurd a h2), .inl rfl, fun k e => upd_other _ _ e⟩
  rw [look]
  split
  · exact this _ id id
  · split
    · exact this _ id id
    · exact this _ id id

theorem step_eff {F : FloatOps} {order : List (Key × Nat) → List (Key × Nat)} {s s' : St} {n : Nat}
    (ht : TWf s.t) (hl : Latch s.th s.shared s.excl) (h : step F order s n = some s') : Eff s n s' := by
  unfold step at h
  have hsame : ∀ p : Pos, ¬ p.holds → ¬ p.reads → Eff s n (s.at n p) := fun p h1 h2 =>
    ⟨ht, rfl, hl.keep (fun a => absurd a h1) (fun a => absurd a h2), .inl rfl, fun k e => upd_other _ _ e⟩
  cases hp : s.th n with
  | idle => rw [hp] at h; cases h
  | done r => rw [hp] at h; cases h
  | called st =>
    rw [hp] at h
    cases st with
    | insert d =>
      simp only at h
      cases hi : prepareInsert s.t.model d with
      | ok x =>
        simp only [hi] at h
        split at h
        · cases h
        · rename_i hx
          cases h
          simp only [Bool.not_eq_true] at hx
          rw [hx] at hl
          exact ⟨ht, rfl, by simpa only [St.at, hx] using hl.share id, .inl rfl, fun k e => upd_other _ _ e⟩
      | err e => simp only [hi] at h; cases h; exact hsame _ id id
      | panic => simp only [hi] at h; cases h; exact hsame _ id id
      | hang => simp only [hi] at h; cases h; exact hsame _ id id
    | delete w =>
      simp only at h
      split at h
      · cases h
      · rename_i hx
        cases h
        simp only [Bool.not_eq_true] at hx
        rw [hx] at hl
        exact ⟨ht, rfl, by simpa only [St.at, hx] using hl.share id, .inl rfl, fun k e => upd_other _ _ e⟩
    | update as w => cases h; exact look_eff ht hl _ _ _
    | select fs w => cases h; exact look_eff ht hl _ _ _
    | selectAll fs l =>
      simp only at h
      split at h
      · cases h; exact hsame _ id id
      · split at h
        · cases h
        · rename_i hx
          cases h
          simp only [not_or, Bool.not_eq_true, ne_eq, Decidable.not_not] at hx
          rw [hx.1, hx.2] at hl
          exact ⟨ht, rfl, by simpa only [St.at, hx.2] using hl.lock id, .inl rfl, fun k e => upd_other _ _ e⟩
  | insert d k c =>
    rw [hp] at h
    cases h
    exact ⟨ht.vq _ _, rfl, hl.keep (fun _ => by rw [hp]; trivial) (fun a => a.elim), .inl rfl, fun k e => upd_other _ _ e⟩
  | delete w =>
    rw [hp] at h
    cases h
    exact ⟨ht.vq _ _, rfl, hl.keep (fun _ => by rw [hp]; trivial) (fun a => a.elim), .inl rfl, fun k e => upd_other _ _ e⟩
  | push d =>
    rw [hp] at h
    cases h
    refine ⟨ht.vq _ _, rfl, ?_, .inl rfl, fun k e => upd_other _ _ e⟩
    simp only [St.at]
    split
    · exact hl.keep (fun a => a.elim) (fun a => a.elim)
    · exact hl.release id id
  | insertV v d k c =>
    rw [hp] at h
    simp only at h
    split at h
    · cases h
      exact ⟨ht, rfl, hl.release id id, .inl rfl, fun k e => upd_other _ _ e⟩
    · rename_i hk
      cases h
      refine ⟨ht.add hk (r := ⟨k, c, s.t.model.deltas.length, v⟩) rfl s.t.ver s.t.queue, rfl,
        hl.keep (fun _ => by rw [hp]; trivial) (fun a => a.elim), .inr (by rw [hp]; trivial), fun k e => upd_other _ _ e⟩
  | deleteV v w =>
    rw [hp] at h
    simp only at h
    split at h
    · cases h
      exact ⟨ht, rfl, hl.release id id, .inl rfl, fun k e => upd_other _ _ e⟩
    · split at h
      · cases h
        exact ⟨ht, rfl, hl.release id id, .inl rfl, fun k e => upd_other _ _ e⟩
      · cases h
        exact ⟨ht.del _ s.t.ver s.t.queue, rfl,
          hl.keep (fun _ => by rw [hp]; trivial) (fun a => a.elim), .inr (by rw [hp]; trivial), fun k e => upd_other _ _ e⟩
  | found i st =>
    rw [hp] at h
    by_cases hheld : i ∈ s.held
    · cases st <;> simp only [hheld, if_true] at h <;> cases h
    cases hr : s.t.heap[i]? with
    | none => cases st <;> simp only [hheld, if_false, hr] at h <;> cases h <;> exact hsame _ id id
    | some r =>
      have hset : ∀ (r' : RowObj) (x : Data) (v q) (p : Pos) (hd : List Nat), r'.key = r.key → ¬ p.holds → ¬ p.reads →
          Eff s n ⟨setData { s.t with ver := v, queue := q } i r' x, upd s.th n p, s.shared, s.excl, hd⟩ :=
        fun r' x v q p hd hk h1 h2 => ⟨ht.setData hr hk x v q, rfl, hl.keep (fun a => absurd a h1) (fun a => absurd a h2), .inl rfl,
          fun k e => upd_other _ _ e⟩
      cases st with
      | update as w =>
        simp only [hheld, if_false, hr] at h
        split at h
        · cases h
          exact hset { r with revised := s.t.ver } _ (s.t.ver + 1) s.t.queue _ _ rfl (by simp [Pos.holds]) id
        · cases h
          exact hset r _ (s.t.ver + 1) s.t.queue _ _ rfl id id
      | _ =>
        simp only [hheld, if_false, hr] at h
        cases h
        exact hset r _ s.t.ver s.t.queue _ _ rfl id id
  | reading ks rest acc =>
    have hrd : (s.th n).reads := by rw [hp]; trivial
    rw [hp] at h
    cases rest with
    | nil =>
      cases h
      exact ⟨ht, rfl, hl.unlock hrd id id, .inl rfl, fun k e => upd_other _ _ e⟩
    | cons e rest =>
      obtain ⟨k, i⟩ := e
      simp only at h
      split at h
      · cases h
      · split at h
        · cases h
          exact ⟨ht, rfl, hl.unlock hrd id id, .inl rfl, fun k e => upd_other _ _ e⟩
        · rename_i r hr
          have hs := ht.setData hr rfl (resolveData s.t.model (RowObj.data r)) s.t.ver s.t.queue
          split at h
          · cases h
            exact ⟨hs, rfl, hl.unlock hrd id id, .inl rfl, fun k e => upd_other _ _ e⟩
          · cases h
            exact ⟨hs, rfl, hl.keep (fun a => a.elim) (fun _ => hrd), .inl rfl, fun k e => upd_other _ _ e⟩

/-- What is kept by all that happens. -/
structure Stays (s : St) (s' : St) : Prop where
  twf : TWf s'.t
  model : s'.t.model = s.t.model
  latch : Latch s'.th s'.shared s'.excl

theorem sched_eff {F : FloatOps} {order : List (Key × Nat) → List (Key × Nat)} {s s' : St} {o : Sch} {e : Option (Ev Stmt Reply)}
    (ht : TWf s.t) (hl : Latch s.th s.shared s.excl) (h : sched F order s o = some (s', e)) :
    Stays s s' ∧ ∀ n, s.th n ≠ .idle → (∀ r, e ≠ some (.ret n r)) → o ≠ .go n →
      s'.th n = s.th n ∧ ((s.th n).reads → s'.t.idx = s.t.idx) := by
  cases o with
  | call k st =>
    rw [sched] at h
    split at h
    · rename_i hk
      cases h
      refine ⟨⟨ht, rfl, hl.keep (fun a => a.elim) (fun a => a.elim)⟩, fun n h1 _ _ => ⟨upd_other _ _ ?_, fun _ => rfl⟩⟩
      rintro rfl
      exact h1 hk
    · cases h
  | ret k =>
    rw [sched] at h
    split at h
    · cases h
      refine ⟨⟨ht, rfl, hl.keep (fun a => a.elim) (fun a => a.elim)⟩, fun n _ h2 _ => ⟨upd_other _ _ ?_, fun _ => rfl⟩⟩
      rintro rfl
      exact h2 _ rfl
    · cases h
  | flush k =>
    rw [sched] at h
    cases h
    exact ⟨⟨ht.vq _ _, rfl, hl⟩, fun n _ _ _ => ⟨rfl, fun _ => rfl⟩⟩
  | go k =>
    rw [sched, Option.map_eq_some_iff] at h
    obtain ⟨x, h1, h2⟩ := h
    cases h2
    have he := step_eff ht hl h1
    refine ⟨⟨he.twf, he.model, he.latch⟩, fun n _ _ h3 => ?_⟩
    have hk : n ≠ k := by rintro rfl; exact h3 rfl
    refine ⟨he.other n hk, fun hr => ?_⟩
    rcases he.idx with h | h
    · exact h
    · have := hl.sh k h
      rw [hl.ex (hl.rd n hr)] at this
      cases this

/-! ### SELECT ALL -/

/-- The states that a schedule goes through. -/
def Visits (F : FloatOps) (order : List (Key × Nat) → List (Key × Nat)) (os : List Sch) (s s' : St) : Prop :=
  ∃ os' es, os' <+: os ∧ scheds F order os' s = some (s', es)

theorem Visits.start {F : FloatOps} {order : List (Key × Nat) → List (Key × Nat)} (os : List Sch) (s : St) : Visits F order os s s :=
  ⟨[], [], List.nil_prefix, rfl⟩

theorem Visits.cons {F : FloatOps} {order : List (Key × Nat) → List (Key × Nat)} {o : Sch} {os : List Sch} {s s1 s' : St}
    {e : Option (Ev Stmt Reply)} (h : sched F order s o = some (s1, e)) (hv : Visits F order os s1 s') :
    Visits F order (o :: os) s s' := by
  obtain ⟨os', es, h1, h2⟩ := hv
  exact ⟨o :: os', e.toList ++ es, List.cons_prefix_cons.2 ⟨rfl, h1⟩, by rw [scheds, h]; simp only [Option.bind_some, h2]⟩

theorem scheds_cons {F : FloatOps} {order : List (Key × Nat) → List (Key × Nat)} {o : Sch} {os : List Sch} {s s' : St}
    {es : List (Ev Stmt Reply)} (h : scheds F order (o :: os) s = some (s', es)) :
    ∃ s1 e es', sched F order s o = some (s1, e) ∧ scheds F order os s1 = some (s', es') ∧ es = e.toList ++ es' := by
  rw [scheds] at h
  obtain ⟨⟨s1, e⟩, h1, h2⟩ := Option.bind_eq_some_iff.1 h
  obtain ⟨⟨s2, es'⟩, h3, h4⟩ := Option.bind_eq_some_iff.1 h2
  cases h4
  exact ⟨s1, e, es', h1, h3, rfl⟩

/-- A row is shown as it was in the state `s`. -/
def Shows (m : Model) (ks : List String) (s : St) (k : Key) (row : List Cell) : Prop :=
  ∃ x, cont s.t k = some x ∧ readAll m.pk (keyCellAll m.pkTag k) (resolveData m x).1 ks = some row

/-- A row cannot be shown as it is in the state `s`. -/
def Fails (m : Model) (ks : List String) (s : St) : Prop :=
  ∃ k x, cont s.t k = some x ∧ readAll m.pk (keyCellAll m.pkTag k) (resolveData m x).1 ks = none

/-- An answer stays until it is sent. -/
theorem done_stays {F : FloatOps} {order : List (Key × Nat) → List (Key × Nat)} {n : Nat} {r : Reply} :
    ∀ (os : List Sch) {s s' : St} {es : List (Ev Stmt Reply)}, TWf s.t → Latch s.th s.shared s.excl → s.th n = .done r →
      scheds F order os s = some (s', es) → (∀ r, Ev.ret n r ∉ es) → s'.th n = .done r
  | [], s, s', es, _, _, hd, h, _ => by cases h; exact hd
  | o :: os, s, s', es, ht, hl, hd, h, hn => by
    obtain ⟨s1, e, es', h1, h2, rfl⟩ := scheds_cons h
    obtain ⟨st, h3⟩ := sched_eff ht hl h1
    have hgo : o ≠ .go n := by
      rintro rfl
      rw [sched, step, hd] at h1
      cases h1
    refine done_stays os st.twf st.latch ?_ h2 (fun r hr => hn r (by simp [hr]))
    rw [(h3 n (by rw [hd]; simp) (fun r he => hn r (by simp [he])) hgo).1, hd]

/-- The reading of the rows. -/
theorem reading_shows {F : FloatOps} {order : List (Key × Nat) → List (Key × Nat)} {n : Nat} {ks : List String} {m : Model}
    {idx : List (Key × Nat)} : ∀ (os : List Sch) {s s' : St} {es : List (Ev Stmt Reply)} {rest : List (Key × Nat)}
      {acc : List (List Cell)} {r : Reply}, TWf s.t → Latch s.th s.shared s.excl → s.t.model = m → s.t.idx = idx →
      s.th n = .reading ks rest acc → (∀ e ∈ rest, e ∈ idx) →
      scheds F order os s = some (s', es) → (∀ r, Ev.ret n r ∉ es) → s'.th n = .done r →
      (r = .panic ∧ ∃ s1, Visits F order os s s1 ∧ s1.t.idx = idx ∧ Fails m ks s1) ∨
      ∃ rows, r = .rows ks.length (acc ++ rows) ∧
        Forall2 (fun e row => ∃ s1, Visits F order os s s1 ∧ s1.t.idx = idx ∧ Shows m ks s1 e.1 row) rest rows
  | [], s, s', es, rest, acc, r, _, _, _, _, hp, _, h, _, hd => by
    cases h
    rw [hp] at hd
    cases hd
  | o :: os, s, s', es, rest, acc, r, ht, hl, hm, hi, hp, hin, h, hn, hd => by
    obtain ⟨s1, e, es', h1, h2, rfl⟩ := scheds_cons h
    obtain ⟨st, h3⟩ := sched_eff ht hl h1
    have hn' : ∀ r, Ev.ret n r ∉ es' := fun r hr => hn r (by simp [hr])
    have lift : ∀ {rest : List (Key × Nat)} {rows : List (List Cell)},
        Forall2 (fun e row => ∃ s2, Visits F order os s1 s2 ∧ s2.t.idx = idx ∧ Shows m ks s2 e.1 row) rest rows →
        Forall2 (fun e row => ∃ s2, Visits F order (o :: os) s s2 ∧ s2.t.idx = idx ∧ Shows m ks s2 e.1 row) rest rows :=
      fun h => h.imp fun a b ⟨s2, a1, a2⟩ => ⟨s2, a1.cons h1, a2⟩
    by_cases hgo : o = .go n
    · subst hgo
      have hstep : step F order s n = some s1 := by
        rw [sched, Option.map_eq_some_iff] at h1
        obtain ⟨x, a1, a2⟩ := h1
        cases a2
        exact a1
      unfold step at hstep
      rw [hp] at hstep
      cases rest with
      | nil =>
        cases hstep
        have := done_stays (r := .rows ks.length acc) os st.twf st.latch (upd_same _ _ _) h2 hn'
        rw [hd] at this
        cases this
        exact .inr ⟨[], by simp, .nil⟩
      | cons a rest =>
        obtain ⟨k, i⟩ := a
        have hk : kget s.t.idx k = some i := kget_of_mem ht.nodup (by rw [hi]; exact hin _ (by simp))
        obtain ⟨row, hr, _, hc⟩ := ht.cont_some hk
        simp only [hr] at hstep
        split at hstep
        · cases hstep
        · split at hstep
          · rename_i hra
            cases hstep
            have := done_stays (r := .panic) os st.twf st.latch (upd_same _ _ _) h2 hn'
            rw [hd] at this
            cases this
            exact .inl ⟨rfl, s, .start _ _, hi, k, _, hc, by rw [← hm]; exact hra⟩
          · rename_i cs hra
            cases hstep
            rcases reading_shows os st.twf st.latch (st.model.trans hm) hi (upd_same _ _ _) (fun e he => hin e (by simp [he])) h2 hn' hd
              with ⟨a1, s2, a2, a3⟩ | ⟨rows, a1, a2⟩
            · exact .inl ⟨a1, s2, a2.cons h1, a3⟩
            · refine .inr ⟨cs :: rows, by rw [a1]; simp, .cons ⟨s, .start _ _, hi, _, hc, by rw [← hm]; exact hra⟩ (lift a2)⟩
    · obtain ⟨b1, b2⟩ := h3 n (by rw [hp]; simp) (fun r he => hn r (by simp [he])) hgo
      rcases reading_shows os st.twf st.latch (st.model.trans hm) ((b2 (by rw [hp]; trivial)).trans hi) (b1.trans hp) hin h2 hn' hd
        with ⟨a1, s2, a2, a3⟩ | ⟨rows, a1, a2⟩
      · exact .inl ⟨a1, s2, a2.cons h1, a3⟩
      · exact .inr ⟨rows, a1, lift a2⟩

/-- The columns that `SELECT ALL` names. -/
def allCols (m : Model) (fs : Option (List String)) : List String := fs.getD (colNames m.fields)

/-- A named column is unknown, or there are more names than columns. -/
def BadCols (m : Model) (fs : Option (List String)) : Prop :=
  fs.isSome = true ∧ ((colNames m.fields).length < (allCols m fs).length ∨ ∃ k ∈ allCols m fs, fget m.fields k = none)

theorem called_shows {F : FloatOps} {order : List (Key × Nat) → List (Key × Nat)} (ho : ∀ l, (order l).Perm l) {n : Nat}
    {fs : Option (List String)} {lim : Nat} {m : Model} :
    ∀ (os : List Sch) {s s' : St} {es : List (Ev Stmt Reply)} {r : Reply}, TWf s.t → Latch s.th s.shared s.excl → s.t.model = m →
      s.th n = .called (.selectAll fs lim) →
      scheds F order os s = some (s', es) → (∀ r, Ev.ret n r ∉ es) → s'.th n = .done r →
      (r = .err .unknownField ∧ BadCols m fs) ∨
      (r = .panic ∧ ∃ s1, Visits F order os s s1 ∧ Fails m (allCols m fs) s1) ∨
      ∃ s0 rows, Visits F order os s s0 ∧ r = .rows (allCols m fs).length rows ∧
        Forall2 (fun e row => ∃ s1, Visits F order os s s1 ∧ s1.t.idx = s0.t.idx ∧ Shows m (allCols m fs) s1 e.1 row)
          ((order s0.t.idx).take lim) rows
  | [], s, s', es, r, _, _, _, hp, h, _, hd => by
    cases h
    rw [hp] at hd
    cases hd
  | o :: os, s, s', es, r, ht, hl, hm, hp, h, hn, hd => by
    obtain ⟨s1, e, es', h1, h2, rfl⟩ := scheds_cons h
    obtain ⟨st, h3⟩ := sched_eff ht hl h1
    have hn' : ∀ r, Ev.ret n r ∉ es' := fun r hr => hn r (by simp [hr])
    by_cases hgo : o = .go n
    · subst hgo
      have hstep : step F order s n = some s1 := by
        rw [sched, Option.map_eq_some_iff] at h1
        obtain ⟨x, a1, a2⟩ := h1
        cases a2
        exact a1
      unfold step at hstep
      rw [hp] at hstep
      simp only [hm] at hstep
      split at hstep
      · rename_i hb
        cases hstep
        have := done_stays (r := .err .unknownField) os st.twf st.latch (upd_same _ _ _) h2 hn'
        rw [hd] at this
        cases this
        refine .inl ⟨rfl, ?_⟩
        simp only [Bool.and_eq_true, Bool.or_eq_true, decide_eq_true_eq, List.any_eq_true, Option.isNone_iff_eq_none] at hb
        exact hb
      · split at hstep
        · cases hstep
        · cases hstep
          refine .inr ?_
          rcases reading_shows (idx := s.t.idx) os st.twf st.latch (st.model.trans hm) rfl (upd_same _ _ _)
              (fun e he => (ho _).subset (List.mem_of_mem_take he)) h2 hn' hd with ⟨a1, s2, a2, _, a3⟩ | ⟨rows, a1, a2⟩
          · exact .inl ⟨a1, s2, a2.cons h1, a3⟩
          · exact .inr ⟨s, rows, .start _ _, a1, a2.imp fun a b ⟨s2, b1, b2⟩ => ⟨s2, b1.cons h1, b2⟩⟩
    · obtain ⟨b1, _⟩ := h3 n (by rw [hp]; simp) (fun r he => hn r (by simp [he])) hgo
      rcases called_shows ho os st.twf st.latch (st.model.trans hm) (b1.trans hp) h2 hn' hd with
        h | ⟨a1, s2, a2, a3⟩ | ⟨s0, rows, a0, a1, a2⟩
      · exact .inl h
      · exact .inr (.inl ⟨a1, s2, a2.cons h1, a3⟩)
      · exact .inr (.inr ⟨s0, rows, a0.cons h1, a1, a2.imp fun a b ⟨s2, b1, b2⟩ => ⟨s2, b1.cons h1, b2⟩⟩)

theorem scheds_keep {F : FloatOps} {order : List (Key × Nat) → List (Key × Nat)} : ∀ (os : List Sch) {s s' : St} {es : List (Ev Stmt Reply)},
    TWf s.t → Latch s.th s.shared s.excl → scheds F order os s = some (s', es) → Stays s s'
  | [], s, s', es, ht, hl, h => by cases h; exact ⟨ht, rfl, hl⟩
  | o :: os, s, s', es, ht, hl, h => by
    obtain ⟨s1, e, es', h1, h2, rfl⟩ := scheds_cons h
    obtain ⟨st, _⟩ := sched_eff ht hl h1
    have := scheds_keep os st.twf st.latch h2
    exact ⟨this.twf, this.model.trans st.model, this.latch⟩

/-- **C57 (partial).** A `SELECT ALL` with any statements at the same time. Its keys are those of the index at one instant
`s0` between its sending and its answer, in the order of the index and up to the limit, and no key comes or goes until it
has read the last row. Each row is shown as it was at some instant in between, but not all at the same one. It panics only if a
row lacks a column then. -/
theorem C57_select_all_partial {F : FloatOps} {order : List (Key × Nat) → List (Key × Nat)} (ho : ∀ l, (order l).Perm l) {t : Tbl}
    (ht : TWf t) {os os' : List Sch} {s s' : St} {es es' : List (Ev Stmt Reply)} {n : Nat} {fs : Option (List String)} {lim : Nat}
    {r : Reply} (h : scheds F order os (.start t) = some (s, es)) (hp : s.th n = .called (.selectAll fs lim))
    (h' : scheds F order os' s = some (s', es')) (hn : ∀ r, Ev.ret n r ∉ es') (hd : s'.th n = .done r) :
    (r = .err .unknownField ∧ BadCols t.model fs) ∨
    (r = .panic ∧ ∃ s1, Visits F order os' s s1 ∧ Fails t.model (allCols t.model fs) s1) ∨
    ∃ s0 rows, Visits F order os' s s0 ∧ r = .rows (allCols t.model fs).length rows ∧
      Forall2 (fun e row => ∃ s1, Visits F order os' s s1 ∧ s1.t.idx = s0.t.idx ∧ Shows t.model (allCols t.model fs) s1 e.1 row)
        ((order s0.t.idx).take lim) rows := by
  have hl : Latch (St.start t).th (St.start t).shared (St.start t).excl :=
    ⟨fun _ h => h.elim, fun h => (by cases h), fun _ h => h.elim, fun _ _ h => h.elim⟩
  have st := scheds_keep os (s := .start t) ht hl h
  exact called_shows ho os' st.twf st.latch st.model hp h' hn hd

end Verif.Dml.Par
