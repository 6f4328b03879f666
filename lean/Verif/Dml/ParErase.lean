import Verif.Dml.ParExamples
/-!
`SELECT ALL` does not disturb the other statements: a schedule without it does the same to the table and gives the others the same
answers (`core/dml/sel.rs:217-263`).
-/
namespace Verif.Dml.Par
open Verif.Gns (Model)
open Verif.Conc (Ev upd upd_same upd_other Linearizable)

/-- It is a `SELECT ALL`. -/
def isAll : Stmt → Bool
  | .selectAll _ _ => true
  | _ => false

/-- Which clients wait for the answer of a `SELECT ALL` after this event. -/
def mark (A : Nat → Bool) : Ev Stmt Reply → Nat → Bool
  | .call n st => if isAll st then upd A n true else A
  | .ret n _ => upd A n false

/-- The event is not one of a `SELECT ALL`. -/
def other (A : Nat → Bool) : Ev Stmt Reply → Bool
  | .call _ st => !isAll st
  | .ret n _ => !A n

/-- What clients see, without the `SELECT ALL` statements and their answers. -/
def without (A : Nat → Bool) : List (Ev Stmt Reply) → List (Ev Stmt Reply)
  | [] => []
  | e :: es => if other A e then e :: without (mark A e) es else without (mark A e) es

/-- Who waits after all these events. -/
def marks (A : Nat → Bool) (es : List (Ev Stmt Reply)) : Nat → Bool := es.foldl mark A

/-- Nobody waits for a `SELECT ALL`. -/
def nobody : Nat → Bool := fun _ => false

theorem without_append (es es' : List (Ev Stmt Reply)) : ∀ A, without A (es ++ es') = without A es ++ without (marks A es) es' := by
  induction es with
  | nil => intro A; rfl
  | cons e es ih =>
    intro A
    simp only [List.cons_append, without, ih, marks, List.foldl_cons]
    split <;> rfl

theorem without_noAll (es : List (Ev Stmt Reply)) : ∀ A, NoAll (without A es) := by
  induction es with
  | nil => intro A n fs l h; cases h
  | cons e es ih =>
    intro A n fs l h
    rw [without] at h
    split at h
    · rename_i ho
      rcases List.mem_cons.1 h with rfl | h
      · simp [other, isAll] at ho
      · exact ih _ n fs l h
    · exact ih _ n fs l h

/-- If there is none, nothing is left out. -/
theorem without_same {es : List (Ev Stmt Reply)} (h : NoAll es) : without nobody es = es := by
  induction es with
  | nil => rfl
  | cons e es ih =>
    have h1 : other nobody e = true ∧ mark nobody e = nobody := by
      cases e with
      | call n st =>
        cases st with
        | selectAll fs l => exact absurd (List.mem_cons_self ..) (h n fs l)
        | _ => exact ⟨rfl, rfl⟩
      | ret n r =>
        refine ⟨rfl, ?_⟩
        funext k
        by_cases e : k = n
        · subst e; rw [mark, upd_same]; rfl
        · rw [mark, upd_other _ _ e]
    rw [without, if_pos h1.1, h1.2, ih (fun n fs l hm => h n fs l (List.mem_cons_of_mem _ hm))]

/-- All rows are up to date with the columns. -/
def Current (t : Tbl) : Prop := ∀ r ∈ t.heap, r.schema = t.model.deltas.length

/-- The thread executes `SELECT ALL` and has not yet its answer. -/
def Pos.inAll : Pos → Bool
  | .called st => isAll st
  | .reading _ _ _ => true
  | _ => false

/-- The thread may execute `SELECT ALL`. -/
def Pos.allPos : Pos → Bool
  | .called st => isAll st
  | .reading _ _ _ => true
  | .done _ => true
  | _ => false

/-- `u` is `s` without the `SELECT ALL` statements of the clients in `A`. -/
structure Er (A : Nat → Bool) (s u : St) : Prop where
  t : u.t = s.t
  shared : u.shared = s.shared
  held : u.held = s.held
  excl : u.excl = false
  th : ∀ n, u.th n = if A n then .idle else s.th n
  yes : ∀ n, A n = true → (s.th n).allPos = true
  no : ∀ n, A n = false → (s.th n).inAll = false

theorem setData_same {t : Tbl} (hc : Current t) {i : Nat} {r : RowObj} (h : t.heap[i]? = some r) :
    resolveData t.model (RowObj.data r) = RowObj.data r ∧ setData t i r (RowObj.data r) = t := by
  have hs := hc r (List.mem_of_getElem? h)
  constructor
  · have := resolve_data t.model r
    unfold resolveData
    rw [resolve, if_pos (by simp only [RowObj.data, hs]; omega)]
    rfl
  · have : ({ r with cells := (RowObj.data r).1, schema := (RowObj.data r).2 } : RowObj) = r := rfl
    rw [setData, this, setRow, set_self h]

/-- A step of another statement is possible without the `SELECT ALL`s, and does the same. -/
theorem step_other {F : FloatOps} {order : List (Key × Nat) → List (Key × Nat)} {s s' : St} {n : Nat} {th : Nat → Pos}
    (hr : (s.th n).inAll = false) (ht : th n = s.th n) (h : step F order s n = some s') :
    step F order ⟨s.t, th, s.shared, false, s.held⟩ n = some ⟨s'.t, upd th n (s'.th n), s'.shared, false, s'.held⟩ ∧
    s'.th = upd s.th n (s'.th n) ∧ (s'.th n).inAll = false := by
  have hup : ∀ p : Pos, upd s.th n p n = p := fun p => upd_same _ _ _
  unfold step at h ⊢
  simp only [ht]
  generalize hp : s.th n = p at h hr
  cases p with
  | idle => cases h
  | done r => cases h
  | reading ks rest acc => cases hr
  | called st =>
    cases st with
    | selectAll fs l => cases hr
    | insert d =>
      simp only at h ⊢
      cases hq : prepareInsert s.t.model d with
      | ok x =>
        rw [hq] at h
        simp only at h ⊢
        split at h
        · cases h
        · cases h
          simp [St.at, upd_same, Pos.inAll]
      | err e => rw [hq] at h; cases h; simp [St.at, upd_same, Pos.inAll]
      | panic => rw [hq] at h; cases h; simp [St.at, upd_same, Pos.inAll]
      | hang => rw [hq] at h; cases h; simp [St.at, upd_same, Pos.inAll]
    | delete w =>
      simp only at h ⊢
      split at h
      · cases h
      · cases h
        simp [St.at, upd_same, Pos.inAll]
    | update as w =>
      cases h
      simp only [look]
      repeat' split
      all_goals simp_all [St.at, upd_same, Pos.inAll]
    | select fs w =>
      cases h
      simp only [look]
      repeat' split
      all_goals simp_all [St.at, upd_same, Pos.inAll]
  | insert d k c => cases h; simp [St.at, upd_same, Pos.inAll]
  | insertV v d k c =>
    simp only at h ⊢
    split at h
    · rename_i h1; cases h; simp [St.at, upd_same, Pos.inAll]
    · rename_i h1; cases h; simp [St.at, upd_same, Pos.inAll]
  | delete w => cases h; simp [St.at, upd_same, Pos.inAll]
  | deleteV v w =>
    simp only at h ⊢
    split at h
    · rename_i h1; cases h; simp [St.at, upd_same, Pos.inAll]
    · rename_i h1
      split at h
      · rename_i h2; cases h; simp [St.at, upd_same, Pos.inAll]
      · rename_i h2; cases h; simp [St.at, upd_same, Pos.inAll]
  | push d => cases h; simp [St.at, upd_same, Pos.inAll]
  | found i st =>
    cases st
    all_goals
      simp only at h ⊢
      split at h
      · cases h
      · rename_i hi
        rw [if_neg hi]
        split at h
        · rename_i h1; cases h; simp [St.at, upd_same, Pos.inAll]
        · rename_i h1
          try simp only [h1]
          first
            | (cases h; simp [St.at, upd_same, Pos.inAll]; done)
            | (split at h
               · rename_i h2; cases h; simp [St.at, upd_same, Pos.inAll]
               · rename_i h2 h3; cases h
                 simp_all [St.at, upd_same, Pos.inAll])

/-- A step of `SELECT ALL` changes nothing but its own position. -/
theorem step_all {F : FloatOps} {order : List (Key × Nat) → List (Key × Nat)} {s s' : St} {n : Nat} (hc : Current s.t)
    (hr : (s.th n).allPos = true) (h : step F order s n = some s') :
    s'.t = s.t ∧ s'.shared = s.shared ∧ s'.held = s.held ∧ s'.th = upd s.th n (s'.th n) ∧ (s'.th n).allPos = true := by
  unfold step at h
  generalize hp : s.th n = p at h hr
  cases p with
  | called st =>
    cases st with
    | selectAll fs l =>
      simp only at h
      split at h
      · cases h; simp [St.at, upd_same, Pos.allPos]
      · split at h
        · cases h
        · cases h; simp [St.at, upd_same, Pos.allPos]
    | _ => cases hr
  | done r => cases h
  | reading ks rest acc =>
    cases rest with
    | nil => cases h; simp [St.at, upd_same, Pos.allPos]
    | cons e rest =>
      obtain ⟨k, i⟩ := e
      simp only at h
      split at h
      · cases h
      · split at h
        · cases h; simp [St.at, upd_same, Pos.allPos]
        · rename_i r hr1
          obtain ⟨e1, e2⟩ := setData_same hc hr1
          simp only [e1] at h
          split at h
          · cases h; simp [St.at, upd_same, Pos.allPos, e2]
          · cases h; simp [St.at, upd_same, Pos.allPos, e2]
  | _ => cases hr

/-- One thing happens: without the `SELECT ALL`s either nothing happens, or the same with the same event. -/
theorem Er.sched {F : FloatOps} {order : List (Key × Nat) → List (Key × Nat)} {A : Nat → Bool} {s s' u : St} {o : Sch}
    {e : Option (Ev Stmt Reply)} (h : Er A s u) (hc : Current s.t) (hs : sched F order s o = some (s', e)) :
    (without A e.toList = [] ∧ Er (marks A e.toList) s' u ∧ s'.t = s.t) ∨
      ∃ u', Par.sched F order u o = some (u', e) ∧ without A e.toList = e.toList ∧ Er (marks A e.toList) s' u' := by
  have hu : u = ⟨s.t, u.th, s.shared, false, s.held⟩ := by
    obtain ⟨a, b, c, d, e⟩ := u
    have h1 := h.t
    have h2 := h.shared
    have h3 := h.held
    have h4 := h.excl
    simp only at h1 h2 h3 h4
    subst h1 h2 h3 h4
    rfl
  cases o with
  | call n st =>
    simp only [Par.sched] at hs
    split at hs
    · rename_i hi
      cases hs
      have hA : A n = false := by
        cases ha : A n with
        | false => rfl
        | true => have := h.yes n ha; rw [hi] at this; cases this
      cases hst : isAll st with
      | true =>
        refine .inl ⟨by simp [without, other, hst], ?_, rfl⟩
        refine ⟨h.t, h.shared, h.held, h.excl, ?_, ?_, ?_⟩
        · intro k
          simp only [marks, Option.toList, List.foldl_cons, List.foldl_nil, mark, hst, if_true, St.at]
          by_cases e : k = n
          · subst e; rw [upd_same, if_pos rfl, h.th, hA, hi]; rfl
          · rw [upd_other _ _ e, upd_other _ _ e]; exact h.th k
        · intro k
          simp only [marks, Option.toList, List.foldl_cons, List.foldl_nil, mark, hst, if_true, St.at]
          by_cases e : k = n
          · subst e; rw [upd_same, upd_same]; intro _; exact hst
          · rw [upd_other _ _ e, upd_other _ _ e]; exact h.yes k
        · intro k
          simp only [marks, Option.toList, List.foldl_cons, List.foldl_nil, mark, hst, if_true, St.at]
          by_cases e : k = n
          · subst e; rw [upd_same]; intro h; cases h
          · rw [upd_other _ _ e, upd_other _ _ e]; exact h.no k
      | false =>
        refine .inr ⟨u.at n (.called st), ?_, by simp [without, other, hst], ?_⟩
        · have : u.th n = .idle := by rw [h.th, hA, hi]; rfl
          simp only [Par.sched, this]
        · refine ⟨h.t, h.shared, h.held, h.excl, ?_, ?_, ?_⟩
          · intro k
            simp only [marks, Option.toList, List.foldl_cons, List.foldl_nil, mark, hst, St.at]
            by_cases e : k = n
            · subst e; rw [upd_same, upd_same]; simp [hA]
            · rw [upd_other _ _ e, upd_other _ _ e]; exact h.th k
          · intro k
            simp only [marks, Option.toList, List.foldl_cons, List.foldl_nil, mark, hst, St.at]
            by_cases e : k = n
            · subst e; simp [hA]
            · rw [upd_other _ _ e]; exact h.yes k
          · intro k
            simp only [marks, Option.toList, List.foldl_cons, List.foldl_nil, mark, hst, St.at]
            by_cases e : k = n
            · subst e; rw [upd_same]; intro _; exact hst
            · rw [upd_other _ _ e]; exact h.no k
    · cases hs
  | ret n =>
    simp only [Par.sched] at hs
    split at hs
    · rename_i r hi
      cases hs
      have key : ∀ {v : St}, (∀ k, v.th k = if upd A n false k then .idle else (s.at n .idle).th k) → v.t = s.t → v.shared = s.shared →
          v.held = s.held → v.excl = false → Er (marks A [Ev.ret n r]) (s.at n .idle) v := by
        intro v h1 h2 h3 h4 h5
        refine ⟨h2, h3, h4, h5, h1, ?_, ?_⟩
        · intro k
          simp only [marks, List.foldl_cons, List.foldl_nil, mark, St.at]
          by_cases e : k = n
          · subst e; rw [upd_same]; intro h; cases h
          · rw [upd_other _ _ e, upd_other _ _ e]; exact h.yes k
        · intro k
          simp only [marks, List.foldl_cons, List.foldl_nil, mark, St.at]
          by_cases e : k = n
          · subst e; rw [upd_same, upd_same]; intro _; rfl
          · rw [upd_other _ _ e, upd_other _ _ e]; exact h.no k
      cases hA : A n with
      | true =>
        refine .inl ⟨by simp [without, other, hA], key ?_ h.t h.shared h.held h.excl, rfl⟩
        intro k
        by_cases e : k = n
        · subst e; rw [upd_same, h.th, hA]; simp [St.at, upd_same]
        · simp only [St.at]; rw [upd_other _ _ e, upd_other _ _ e]; exact h.th k
      | false =>
        refine .inr ⟨u.at n .idle, ?_, by simp [without, other, hA], key ?_ h.t h.shared h.held h.excl⟩
        · have : u.th n = .done r := by rw [h.th, hA, hi]; rfl
          simp only [Par.sched, this]
        · intro k
          simp only [St.at]
          by_cases e : k = n
          · subst e; rw [upd_same, upd_same, upd_same]; rfl
          · rw [upd_other _ _ e, upd_other _ _ e, upd_other _ _ e]; exact h.th k
    · cases hs
  | go n =>
    simp only [Par.sched, Option.map_eq_some_iff] at hs
    obtain ⟨s1, h1, h2⟩ := hs
    obtain ⟨rfl, rfl⟩ := Prod.mk.injEq .. ▸ h2
    cases hA : A n with
    | true =>
      obtain ⟨a1, a2, a3, a4, a5⟩ := step_all hc (h.yes n hA) h1
      refine .inl ⟨rfl, ⟨h.t.trans a1.symm, h.shared.trans a2.symm, h.held.trans a3.symm, h.excl, ?_, ?_, ?_⟩, a1⟩
      · intro k
        by_cases e : k = n
        · subst e; rw [h.th]; simp [marks, hA]
        · rw [h.th, a4, upd_other _ _ e]; rfl
      · intro k hk
        by_cases e : k = n
        · subst e; exact a5
        · rw [a4, upd_other _ _ e]; exact h.yes k hk
      · intro k hk
        have e : k ≠ n := by
          rintro rfl
          have : A k = false := hk
          rw [hA] at this; cases this
        rw [a4, upd_other _ _ e]; exact h.no k hk
    | false =>
      obtain ⟨b1, b2, b3⟩ := step_other (th := u.th) (h.no n hA) (by rw [h.th, hA]; rfl) h1
      refine .inr ⟨⟨s1.t, upd u.th n (s1.th n), s1.shared, false, s1.held⟩, ?_, rfl, ⟨rfl, rfl, rfl, rfl, ?_, ?_, ?_⟩⟩
      · simp only [Par.sched, Option.map_eq_some_iff]
        exact ⟨_, by rw [hu]; exact b1, rfl⟩
      · intro k
        show upd u.th n (s1.th n) k = if A k then _ else _
        by_cases e : k = n
        · subst e; rw [upd_same, hA]; rfl
        · rw [upd_other _ _ e, h.th, b2, upd_other _ _ e]
      · intro k hk
        have e : k ≠ n := by
          rintro rfl
          have : A k = true := hk
          rw [hA] at this; cases this
        rw [b2, upd_other _ _ e]; exact h.yes k hk
      · intro k hk
        by_cases e : k = n
        · subst e; exact b3
        · rw [b2, upd_other _ _ e]; exact h.no k hk
  | flush n =>
    cases hs
    refine .inr ⟨{ u with t := { u.t with queue := u.t.queue.drop n } }, rfl, rfl, ⟨?_, h.shared, h.held, h.excl, h.th, h.yes, h.no⟩⟩
    simp only [h.t]

theorem Er.start (t : Tbl) : Er nobody (.start t) (.start t) :=
  ⟨rfl, rfl, rfl, rfl, fun _ => rfl, fun _ h => (by cases h), fun _ _ => rfl⟩


theorem Current.set {t : Tbl} (hc : Current t) {i : Nat} {r : RowObj} {x : Data} (hx : x.2 = t.model.deltas.length) :
    Current (setData t i r x) := by
  intro q hq
  rcases List.mem_or_eq_of_mem_set hq with h | h
  · exact hc q h
  · subst h; exact hx

theorem rowAct_schema {F : FloatOps} {m : Model} (st : Stmt) {x : Data} (hx : x.2 = m.deltas.length) :
    (rowAct F m st x).1.2 = m.deltas.length := by
  have hr : (resolveData m x).2 = m.deltas.length := by
    unfold resolveData
    rw [resolve, if_pos (by simp only [hx]; omega)]
    exact hx
  unfold rowAct
  repeat' split
  all_goals assumption

/-- The rows stay up to date. -/
theorem sched_current {F : FloatOps} {order : List (Key × Nat) → List (Key × Nat)} {s s' : St} {o : Sch}
    {e : Option (Ev Stmt Reply)} (hc : Current s.t) (hs : sched F order s o = some (s', e)) : Current s'.t := by
  cases o with
  | call n st =>
    simp only [Par.sched] at hs
    split at hs <;> cases hs
    exact hc
  | ret n =>
    simp only [Par.sched] at hs
    split at hs <;> cases hs
    exact hc
  | flush n => cases hs; exact hc
  | go n =>
    simp only [Par.sched, Option.map_eq_some_iff] at hs
    obtain ⟨s1, h1, h2⟩ := hs
    cases h2
    unfold step at h1
    generalize hp : s.th n = p at h1
    cases p with
    | idle => cases h1
    | done r => cases h1
    | called st =>
      cases st with
      | selectAll fs l =>
        simp only at h1
        repeat' split at h1
        all_goals cases h1
        all_goals exact hc
      | insert d =>
        simp only at h1
        repeat' split at h1
        all_goals cases h1
        all_goals exact hc
      | delete w =>
        simp only at h1
        repeat' split at h1
        all_goals cases h1
        all_goals exact hc
      | update as w =>
        cases h1
        simp only [look]
        repeat' split
        all_goals exact hc
      | select fs w =>
        cases h1
        simp only [look]
        repeat' split
        all_goals exact hc
    | insert d k c => cases h1; exact hc
    | delete w => cases h1; exact hc
    | push d => cases h1; exact hc
    | insertV v d k c =>
      simp only at h1
      split at h1
      · cases h1; exact hc
      · cases h1
        intro q hq
        rcases List.mem_append.1 hq with h | h
        · exact hc q h
        · rw [List.mem_singleton] at h; subst h; rfl
    | deleteV v w =>
      simp only at h1
      repeat' split at h1
      all_goals cases h1
      all_goals exact hc
    | reading ks rest acc =>
      cases rest with
      | nil => cases h1; exact hc
      | cons e rest =>
        obtain ⟨k, i⟩ := e
        simp only at h1
        split at h1
        · cases h1
        · split at h1
          · cases h1; exact hc
          · rename_i r hr1
            obtain ⟨e1, e2⟩ := setData_same hc hr1
            simp only [e1, e2] at h1
            split at h1 <;> (cases h1; exact hc)
    | found i st =>
      have key : ∀ {r : RowObj} {x : Data} {e : Reply}, s.t.heap[i]? = some r → rowAct F s.t.model st (RowObj.data r) = (x, e) →
          x.2 = s.t.model.deltas.length := by
        intro r x e h1 h2
        have := rowAct_schema (F := F) (m := s.t.model) st (x := RowObj.data r) (hc r (List.mem_of_getElem? h1))
        rw [h2] at this
        exact this
      have gen : ∀ {r : RowObj} {x : Data} {e : Reply} {v : Nat}, s.t.heap[i]? = some r → rowAct F s.t.model st (RowObj.data r) = (x, e) →
          ∀ r', Current (setData { s.t with ver := v } i r' x) := by
        intro r x e v h1 h2 r'
        exact Current.set (t := { s.t with ver := v }) hc (key h1 h2)
      cases st with
      | update as w =>
        simp only at h1
        split at h1
        · cases h1
        · split at h1
          · cases h1; exact hc
          · rename_i r hr
            split at h1
            · rename_i x hx; cases h1; exact gen hr hx _
            · rename_i x e _ hx; cases h1; exact gen hr hx _
      | _ =>
        simp only at h1
        split at h1
        · cases h1
        · split at h1
          · cases h1; exact hc
          · rename_i r hr
            cases h1
            exact gen (v := s.t.ver) hr rfl _

/-- A schedule without the `SELECT ALL`s: the same table in the end, the same answers to the others. -/
theorem Er.scheds {F : FloatOps} {order : List (Key × Nat) → List (Key × Nat)} : ∀ (os : List Sch) {A : Nat → Bool} {s s' u : St}
    {es : List (Ev Stmt Reply)}, Er A s u → Current s.t → scheds F order os s = some (s', es) →
    ∃ os' u', Par.scheds F order os' u = some (u', without A es) ∧ Er (marks A es) s' u'
  | [], A, s, s', u, es, h, _, hs => by
    cases hs
    exact ⟨[], u, rfl, h⟩
  | o :: os, A, s, s', u, es, h, hc, hs => by
    rw [Par.scheds] at hs
    obtain ⟨⟨s1, e⟩, h1, h2⟩ := Option.bind_eq_some_iff.1 hs
    obtain ⟨⟨s2, es1⟩, h3, h4⟩ := Option.bind_eq_some_iff.1 h2
    cases h4
    have hc1 := sched_current hc h1
    have hm : marks A (e.toList ++ es1) = marks (marks A e.toList) es1 := by simp [marks, List.foldl_append]
    rw [without_append, hm]
    rcases h.sched hc h1 with ⟨a1, a2, _⟩ | ⟨u1, b1, b2, b3⟩
    · obtain ⟨os', u', c1, c2⟩ := Er.scheds os a2 hc1 h3
      exact ⟨os', u', by rw [a1]; exact c1, c2⟩
    · obtain ⟨os', u', c1, c2⟩ := Er.scheds os b3 hc1 h3
      refine ⟨o :: os', u', ?_, c2⟩
      rw [Par.scheds, b1]
      simp only [Option.bind_some, c1, b2]

/-- **C57 (partial).** With `SELECT ALL` statements among the others, on a table whose rows are up to date with the columns: what
the clients of the other statements see can be seen of these statements executed one after the other, each at an instant between
its sending and its answer. So a `SELECT ALL` does not disturb them. What it shows itself is in `C57_select_all_partial`. Missing:
rows that have older columns, which any SELECT brings up to date; and the point in time of `SELECT ALL`, which does not exist
(`C57_select_all_violated`). -/
theorem C57_others_partial {F : FloatOps} {order : List (Key × Nat) → List (Key × Nat)} {t : Tbl} (ht : TWf t) (hc : Current t)
    {os : List Sch} {s : St} {es : List (Ev Stmt Reply)} (h : scheds F order os (.start t) = some (s, es)) :
    Linearizable (tableObj F order) t (without nobody es) := by
  obtain ⟨os', u', h1, _⟩ := (Er.start t).scheds os hc h
  exact C57_linearizable_partial ht h1 (without_noAll es nobody)

/-- The history of `C57_select_all_violated`: four events are of the two UPDATEs, and the rows are up to date. -/
example : (exHist exAllOs).length = 6 ∧ seen (without nobody (exHist exAllOs)) =
    [(1, none), (1, some (some [])), (1, none), (1, some (some []))] ∧
    exTbl.heap.all (fun r => r.schema == exTbl.model.deltas.length) = true := by
  decide +kernel

/-- A row with the columns `id` and `n`, in a model to which `a` and then `b` were added. -/
def exOld : Tbl :=
  ⟨{ uuid := 7, pk := "id", pkTag := .uint64
     fields := [("id", ⟨[.uint64], false⟩), ("n", ⟨[.uint8], false⟩), ("a", ⟨[.uint8], true⟩), ("b", ⟨[.uint8], true⟩)]
     deltas := [.add "a", .add "b"] },
    [⟨.uint 1, fun k => if k = "n" then some (.uint .uint8 5) else none, 0, 0⟩], [(.uint 1, 0)], 1, []⟩

/-- A client reads the columns `id` and `b` of all rows, then another one sets `b`. -/
def exOldOs : List Sch :=
  [.call 0 (.selectAll (some ["id", "b"]) 10), .go 0, .go 0, .go 0, .ret 0,
   .call 1 (.update [⟨"b", .assign, .uint 3⟩] (whereId 1)), .go 1, .go 1, .go 1, .ret 1]

/-- **C57 is violated.** On a row with older columns a `SELECT ALL` changes what other statements do: the UPDATE of a new column
succeeds after it, and fails without it (the row is brought up to date by reading it and not by changing it, C33). -/
theorem C57_old_rows_violated : ∃ (t : Tbl) (os : List Sch) (s : St) (es : List (Ev Stmt Reply)), TWf t ∧
    scheds exF id os (.start t) = some (s, es) ∧ ¬ Linearizable (tableObj exF id) t (without nobody es) := by
  have hs : (scheds exF id exOldOs (.start exOld)).isSome = true := by decide +kernel
  cases h : scheds exF id exOldOs (.start exOld) with
  | none => rw [h] at hs; cases hs
  | some x =>
    obtain ⟨s, es⟩ := x
    have he : ((scheds exF id exOldOs (.start exOld)).elim [] (·.2)) = es := by rw [h]; rfl
    refine ⟨exOld, exOldOs, s, es, ?_, h, ?_⟩
    · refine ⟨by simp [exOld], ?_⟩
      intro k i hk
      simp only [exOld, kget] at hk
      split at hk
      · rename_i e
        cases hk
        exact ⟨_, rfl, by simpa using e⟩
      · cases hk
    rw [← he]
    refine Conc.not_linearizable (fun a b => decide (shown a = shown b)) (fun _ => by simp) 2 40 ?_ (by decide +kernel)
    have hc : (without nobody ((scheds exF id exOldOs (.start exOld)).elim [] (·.2))).all
        (fun e => match e with | .call t _ => decide (t < 2) | _ => true) = true := by decide +kernel
    intro t op hm
    have := List.all_eq_true.1 hc _ hm
    simpa using this

end Verif.Dml.Par
