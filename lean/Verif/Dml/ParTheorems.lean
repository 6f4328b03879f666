import Verif.Dml.ParSim
/-!
C57: statements on the rows of a model that run at the same time.
-/
namespace Verif.Dml.Par
open Verif.Gns (Model)
open Verif.Conc (Ev Obj ASt AThr AStep ARun Linearizable upd upd_same upd_other)

/-- A step that changes neither rows nor index. -/
theorem same_back {F : FloatOps} {m : Model} {t t' : Tbl} {th : Nat → Pos} (hw : Wf m t th) {n : Nat} {p p' : Pos}
    (hp : th n = p) (hm : t'.model = t.model) (hidx : t'.idx = t.idx) (hheap : t'.heap = t.heap)
    (hpl : ∀ i s, p ≠ .found i s) (hok : PosOk m t' p') (hpl' : ∀ i s, p' = .found i s → i ∈ rowsOf t)
    (hlin : (∀ res, view t res n p = view t' res n p') ∨
      ∃ s r, (∀ res, view t res n p = .pend s) ∧ (∀ res, view t' res n p' = .done r) ∧
        apply F m (cont t) s = (cont t, r)) :
    Wf m t' (upd th n p') ∧ ∀ a', Sim F m t' (upd th n p') a' → ∃ a, Sim F m t th a ∧ ARun (conObj F m) a [] a' := by
  have hc : cont t' = cont t := by unfold cont; rw [hidx, hheap]
  have hr : rowsOf t' = rowsOf t := by unfold rowsOf; rw [hidx]
  have hwf : TWf t' := ⟨by rw [hidx]; exact hw.twf.nodup, by rw [hidx, hheap]; exact hw.twf.rows⟩
  refine ⟨hw.upd hm hwf (.refl hheap) hok, fun a' ha => ?_⟩
  refine back hw hp rfl (fun i _ => by rw [hr]) (fun i _ _ => by rw [hheap]) (fun i s h => absurd h (hpl i s))
    (by rw [hr]; exact hpl') ha ?_
  rw [hc]
  rcases hlin with h | h
  · exact .inl ⟨rfl, h⟩
  · exact .inr h

/-- UPDATE or SELECT acts on its row. -/
theorem act_back {F : FloatOps} {m : Model} {t t' : Tbl} {th : Nat → Pos} (hw : Wf m t th) {n i : Nat} {s : Stmt}
    {r r' : RowObj} {p' : Pos} (hp : th n = .found i s) (hr : t.heap[i]? = some r) (hm : t'.model = t.model)
    (hidx : t'.idx = t.idx) (hheap : t'.heap = t.heap.set i r') (hkey : r'.key = r.key)
    (hd : RowObj.data r' = (rowAct F m s (RowObj.data r)).1)
    (hv : ∀ res, view t' res n p' = .done (rowAct F m s (RowObj.data r)).2) (hpl' : ∀ i s, p' ≠ .found i s)
    (hok : PosOk m t' p') :
    Wf m t' (upd th n p') ∧ ∀ a', Sim F m t' (upd th n p') a' → ∃ a, Sim F m t th a ∧ ARun (conObj F m) a [] a' := by
  have hrows : rowsOf t' = rowsOf t := by unfold rowsOf; rw [hidx]
  have heq : t' = { t with heap := t.heap.set i r', ver := t'.ver, queue := t'.queue } := by
    cases t'
    simp only at hm hidx hheap
    subst hm hidx hheap
    rfl
  have hwf : TWf t' := by rw [heq]; exact hw.twf.set hr hkey _ _
  have hc := cont_set (r' := r') hw.twf hr t'.ver t'.queue
  rw [← heq] at hc
  refine ⟨hw.upd hm hwf (.set hr hheap hkey) hok, fun a' ha => ?_⟩
  by_cases hi : i ∈ rowsOf t
  · rw [if_pos hi] at hc
    refine back hw hp rfl (fun j _ => by rw [hrows]) ?_ ?_ (fun i s h => absurd h (hpl' i s)) ha (.inr ⟨s, _, ?_, hv, ?_⟩)
    · intro j hj hl
      have : i ≠ j := by rintro rfl; exact hj hi
      rw [hheap, List.getElem?_set, if_neg this]
    · intro j s' h
      cases h
      exact hi
    · intro res
      simp [view, hi]
    · have hpos := hw.pos n
      rw [hp] at hpos
      obtain ⟨r0, g1, g2⟩ := hpos
      rw [hr] at g1
      cases g1
      have hl := (hw.twf.live hr).1 hi
      rw [apply_at g2 (show cont t r.key = some (RowObj.data r) by simp [cont, hl, hr]), hc, hd]
  · exact ⟨a', back_orphan hw hp hi hr hidx hheap hd hv hpl' ha, .refl _⟩

theorem look_back {F : FloatOps} {m : Model} {s : St} (hw : Wf m s.t s.th) {n : Nat} {st : Stmt} {w : Where}
    (hp : s.th n = .called st) (hk : stKey m st = resolveWhere m w)
    (hst : ∀ A, apply F m A st = applyRow F m A st w) :
    Wf m (look s n st w).t (look s n st w).th ∧ ∀ a', Sim F m (look s n st w).t (look s n st w).th a' →
      ∃ a, Sim F m s.t s.th a ∧ ARun (conObj F m) a [] a' := by
  unfold look
  rw [hw.model]
  cases hr : resolveWhere m w with
  | none =>
    refine same_back hw hp rfl rfl rfl (by simp) trivial (by simp) (.inr ⟨st, _, fun _ => rfl, fun _ => rfl, ?_⟩)
    rw [hst, applyRow, hr]
  | some k =>
    simp only
    cases hi : kget s.t.idx k with
    | none =>
      refine same_back hw hp rfl rfl rfl (by simp) trivial (by simp) (.inr ⟨st, _, fun _ => rfl, fun _ => rfl, ?_⟩)
      rw [hst, applyRow, hr]
      simp only [cont_none hi]
    | some i =>
      obtain ⟨r, h1, h2⟩ := hw.twf.rows hi
      have hl : i ∈ rowsOf s.t := hw.twf.mem.2 ⟨k, hi⟩
      refine same_back hw hp rfl rfl rfl (by simp) ⟨r, h1, by rw [hk, hr, h2]⟩ ?_ (.inl ?_)
      · intro j s' h
        cases h
        exact hl
      · intro res
        have : i ∈ rowsOf (s.at n (.found i st)).t := hl
        simp [view, this]

/-- Every step of a thread can be simulated backwards. -/
theorem step_back {F : FloatOps} {order : List (Key × Nat) → List (Key × Nat)} {m : Model} {s s' : St} {n : Nat}
    (hw : Wf m s.t s.th) (h : step F order s n = some s') :
    Wf m s'.t s'.th ∧ ∀ a', Sim F m s'.t s'.th a' → ∃ a, Sim F m s.t s.th a ∧ ARun (conObj F m) a [] a' := by
  obtain rfl : s.t.model = m := hw.model
  have hpos := hw.pos n
  unfold step at h
  cases hp : s.th n with
  | idle => rw [hp] at h; cases h
  | done r => rw [hp] at h; cases h
  | reading ks rest acc => rw [hp] at hpos; exact hpos.elim
  | called st =>
    rw [hp] at h hpos
    cases st with
    | insert d =>
      simp only at h
      cases hi : prepareInsert s.t.model d with
      | ok x =>
        obtain ⟨k, c⟩ := x
        simp only [hi] at h
        split at h
        · cases h
        · cases h
          exact same_back hw hp rfl rfl rfl (by simp) hi (by simp) (.inl fun _ => rfl)
      | err e =>
        simp only [hi] at h
        cases h
        refine same_back hw hp rfl rfl rfl (by simp) trivial (by simp) (.inr ⟨_, _, fun _ => rfl, fun _ => rfl, ?_⟩)
        rw [apply, hi]
      | panic =>
        simp only [hi] at h
        cases h
        refine same_back hw hp rfl rfl rfl (by simp) trivial (by simp) (.inr ⟨_, _, fun _ => rfl, fun _ => rfl, ?_⟩)
        rw [apply, hi]
      | hang =>
        simp only [hi] at h
        cases h
        refine same_back hw hp rfl rfl rfl (by simp) trivial (by simp) (.inr ⟨_, _, fun _ => rfl, fun _ => rfl, ?_⟩)
        rw [apply, hi]
    | delete w =>
      simp only at h
      split at h
      · cases h
      · cases h
        exact same_back hw hp rfl rfl rfl (by simp) trivial (by simp) (.inl fun _ => rfl)
    | update as w =>
      cases h
      exact look_back hw hp rfl (fun _ => rfl)
    | select fs w =>
      cases h
      exact look_back hw hp rfl (fun _ => rfl)
    | selectAll fs l => exact absurd rfl (hpos fs l)
  | insert d k c =>
    rw [hp] at h hpos
    cases h
    exact same_back hw hp rfl rfl rfl (by simp) hpos (by simp) (.inl fun _ => rfl)
  | delete w =>
    rw [hp] at h
    cases h
    exact same_back hw hp rfl rfl rfl (by simp) trivial (by simp) (.inl fun _ => rfl)
  | push d =>
    rw [hp] at h
    cases h
    exact same_back hw hp rfl rfl rfl (by simp) trivial (by simp) (.inl fun _ => rfl)
  | insertV v d k c =>
    rw [hp] at h hpos
    simp only at h
    have hpos : prepareInsert s.t.model d = .ok (k, c) := hpos
    cases hk : kget s.t.idx k with
    | some i =>
      rw [hk] at h
      cases h
      obtain ⟨r, h1, h2, h3⟩ := hw.twf.cont_some hk
      refine same_back hw hp rfl rfl rfl (by simp) trivial (by simp) (.inr ⟨.insert d, _, fun _ => rfl, fun _ => rfl, ?_⟩)
      rw [apply, hpos]
      simp only [h3]
    | none =>
      rw [hk] at h
      cases h
      have hadd := hw.twf.add hk (r := ⟨k, c, s.t.model.deltas.length, v⟩) rfl s.t.ver s.t.queue
      refine ⟨hw.upd (p := .push ⟨v, .insert, s.t.heap.length⟩) (t' := ⟨s.t.model, s.t.heap ++ [⟨k, c, s.t.model.deltas.length, v⟩], s.t.idx ++ [(k, s.t.heap.length)], s.t.ver,
        s.t.queue⟩) rfl hadd (.add rfl) trivial, fun a' ha => ?_⟩
      refine back hw hp rfl ?_ ?_ (by simp) (by simp) ha (.inr ⟨.insert d, .empty, fun _ => rfl, fun _ => rfl, ?_⟩)
      · intro i hi
        simp only [rowsOf, List.map_append, List.map_cons, List.map_nil, List.mem_append, List.mem_singleton]
        constructor
        · rintro (h | rfl)
          · exact h
          · omega
        · exact .inl
      · intro i _ hi
        simp only [List.getElem?_append_left hi]
      · rw [apply, hpos]
        simp only [cont_none hk]
        exact congrArg (·, Reply.empty) (cont_add (r := ⟨k, c, s.t.model.deltas.length, v⟩) hw.twf hk s.t.ver s.t.queue).symm
  | deleteV v w =>
    rw [hp] at h
    simp only at h
    cases hr : resolveWhere s.t.model w with
    | none =>
      rw [hr] at h
      cases h
      refine same_back hw hp rfl rfl rfl (by simp) trivial (by simp) (.inr ⟨.delete w, _, fun _ => rfl, fun _ => rfl, ?_⟩)
      rw [apply, hr]
    | some k =>
      rw [hr] at h
      simp only at h
      cases hk : kget s.t.idx k with
      | none =>
        rw [hk] at h
        cases h
        refine same_back hw hp rfl rfl rfl (by simp) trivial (by simp) (.inr ⟨.delete w, _, fun _ => rfl, fun _ => rfl, ?_⟩)
        rw [apply, hr]
        simp only [cont_none hk]
      | some i =>
        rw [hk] at h
        cases h
        refine ⟨hw.upd (t' := { s.t with idx := kdel s.t.idx k }) rfl (hw.twf.del k s.t.ver s.t.queue) (.refl rfl) trivial, fun a' ha => ?_⟩
        exact back_delete hw hp hr hk rfl ha
  | found i st =>
    rw [hp] at h hpos
    obtain ⟨r, hr, _⟩ := hpos
    have other : ∀ e, (rowAct F s.t.model st (RowObj.data r)).2 = e → ∀ v,
        Wf s.t.model (setData { s.t with ver := v } i r (rowAct F s.t.model st (RowObj.data r)).1) (upd s.th n (.done e)) ∧
        ∀ a', Sim F s.t.model (setData { s.t with ver := v } i r (rowAct F s.t.model st (RowObj.data r)).1) (upd s.th n (.done e)) a' →
          ∃ a, Sim F s.t.model s.t s.th a ∧ ARun (conObj F s.t.model) a [] a' := by
      intro e he v
      exact act_back hw hp hr rfl rfl rfl rfl rfl (by intro res; rw [he]; rfl) (by simp) trivial
    by_cases hheld : i ∈ s.held
    · cases st <;> simp only [hheld, if_true] at h <;> cases h
    cases st with
    | update as w =>
      simp only [hheld, if_false, hr] at h
      cases ha : rowAct F s.t.model (.update as w) (RowObj.data r) with
      | mk x e =>
        rw [ha] at h
        simp only [ha] at other
        cases e with
        | empty =>
          cases h
          refine act_back (r' := { r with cells := x.1, schema := x.2, revised := s.t.ver }) hw hp hr rfl rfl rfl rfl
            (by rw [ha]; rfl) (by intro res; rw [ha]; rfl) (by simp) trivial
        | _ => cases h; exact other _ rfl _
    | insert d =>
      simp only [hheld, if_false, hr] at h
      cases h
      exact other _ rfl s.t.ver
    | delete w =>
      simp only [hheld, if_false, hr] at h
      cases h
      exact other _ rfl s.t.ver
    | select fs w =>
      simp only [hheld, if_false, hr] at h
      cases h
      exact other _ rfl s.t.ver
    | selectAll fs l =>
      simp only [hheld, if_false, hr] at h
      cases h
      exact other _ rfl s.t.ver

/-- No `SELECT ALL` is sent. -/
def NoAll (es : List (Ev Stmt Reply)) : Prop := ∀ n fs l, Ev.call n (.selectAll fs l) ∉ es

theorem sched_back {F : FloatOps} {order : List (Key × Nat) → List (Key × Nat)} {m : Model} {s s' : St} {o : Sch}
    {e : Option (Ev Stmt Reply)} (hw : Wf m s.t s.th) (h : sched F order s o = some (s', e)) (hn : NoAll e.toList) :
    Wf m s'.t s'.th ∧ ∀ a', Sim F m s'.t s'.th a' → ∃ a, Sim F m s.t s.th a ∧ ARun (conObj F m) a e.toList a' := by
  have hview : ∀ {n : Nat} {p p' : Pos}, s.th n = p → (∀ i s, p ≠ .found i s) → (∀ i s, p' ≠ .found i s) → ∀ {res : Nat → Reply} {σ : Nat → List Nat},
      (∀ i, i ∉ rowsOf s.t → Orphan F m s.t (upd s.th n p') res i (σ i)) →
      Sim F m s.t s.th ⟨cont s.t, fun x => view s.t res x (s.th x)⟩ ∧
        (fun x => view s.t res x (upd s.th n p' x)) = upd (fun x => view s.t res x (s.th x)) n (view s.t res n p') := by
    intro n p p' hp h1 h2 res σ ho
    refine ⟨⟨res, σ, ?_, rfl⟩, ?_⟩
    · intro i hi
      have hmem : ∀ x, x ∈ σ i ↔ ∃ st, s.th x = .found i st := by
        intro x
        rw [(ho i hi).mem]
        by_cases e : x = n
        · subst e
          rw [upd_same, hp]
          exact ⟨fun ⟨st, h⟩ => absurd h (h2 _ _), fun ⟨st, h⟩ => absurd h (h1 _ _)⟩
        · rw [upd_other _ _ e]
      refine ⟨(ho i hi).nodup, hmem, fun r hr => ((ho i hi).acts r hr).congr ?_⟩
      intro x hx
      refine ⟨upd_other _ _ ?_, rfl⟩
      rintro rfl
      obtain ⟨st, hs⟩ := (hmem x).1 hx
      rw [hp] at hs
      exact h1 _ _ hs
    · funext x
      by_cases e : x = n
      · subst e; rw [upd_same, upd_same]
      · rw [upd_other _ _ e, upd_other _ _ e]
  cases o with
  | call n st =>
    simp only [sched] at h
    cases hp : s.th n with
    | idle =>
      rw [hp] at h
      cases h
      refine ⟨hw.upd rfl hw.twf (.refl rfl) ?_, ?_⟩
      · intro fs l he
        subst he
        exact hn n fs l (by simp)
      · rintro a' ⟨res, σ, ho, rfl⟩
        obtain ⟨h1, h2⟩ := hview hp (by simp) (by simp) ho
        refine ⟨_, h1, ?_⟩
        have hs := AStep.call (O := conObj F m) (a := ⟨cont s.t, fun x => view s.t res x (s.th x)⟩) (t := n) (op := st)
          (by simp [hp, view])
        have h2' : (fun x => view (s.at n (.called st)).t res x ((s.at n (.called st)).th x)) = _ := h2
        rw [h2']
        exact (ARun.refl _).tail hs
    | _ => rw [hp] at h; cases h
  | ret n =>
    simp only [sched] at h
    cases hp : s.th n with
    | done r =>
      rw [hp] at h
      cases h
      refine ⟨hw.upd rfl hw.twf (.refl rfl) trivial, ?_⟩
      rintro a' ⟨res, σ, ho, rfl⟩
      obtain ⟨h1, h2⟩ := hview hp (by simp) (by simp) ho
      refine ⟨_, h1, ?_⟩
      have hs := AStep.ret (O := conObj F m) (a := ⟨cont s.t, fun x => view s.t res x (s.th x)⟩) (t := n) (r := r)
        (by simp [hp, view])
      have h2' : (fun x => view (s.at n .idle).t res x ((s.at n .idle).th x)) = _ := h2
      rw [h2']
      exact (ARun.refl _).tail hs
    | _ => rw [hp] at h; cases h
  | go n =>
    simp only [sched, Option.map_eq_some_iff] at h
    obtain ⟨s1, h1, h2⟩ := h
    cases h2
    exact step_back hw h1
  | flush n =>
    simp only [sched] at h
    cases h
    refine ⟨⟨hw.model, ⟨hw.twf.nodup, hw.twf.rows⟩, hw.fin, fun x => (hw.pos x).keep (.refl rfl)⟩, ?_⟩
    rintro a' ⟨res, σ, ho, rfl⟩
    exact ⟨_, ⟨res, σ, fun i hi => ⟨(ho i hi).nodup, (ho i hi).mem, (ho i hi).acts⟩, rfl⟩, .refl _⟩

theorem scheds_back {F : FloatOps} {order : List (Key × Nat) → List (Key × Nat)} {m : Model} :
    ∀ {os : List Sch} {s s' : St} {es : List (Ev Stmt Reply)}, Wf m s.t s.th → scheds F order os s = some (s', es) →
    NoAll es → Wf m s'.t s'.th ∧ ∀ a', Sim F m s'.t s'.th a' → ∃ a, Sim F m s.t s.th a ∧ ARun (conObj F m) a es a'
  | [], s, s', es, hw, h, _ => by
    cases h
    exact ⟨hw, fun a ha => ⟨a, ha, .refl _⟩⟩
  | o :: os, s, s', es, hw, h, hn => by
    rw [scheds] at h
    obtain ⟨⟨s1, e⟩, h1, h2⟩ := Option.bind_eq_some_iff.1 h
    obtain ⟨⟨s2, es2⟩, h3, h4⟩ := Option.bind_eq_some_iff.1 h2
    cases h4
    obtain ⟨w1, b1⟩ := sched_back hw h1 (fun n fs l hm => hn n fs l (List.mem_append_left _ hm))
    obtain ⟨w2, b2⟩ := scheds_back w1 h3 (fun n fs l hm => hn n fs l (List.mem_append_right _ hm))
    refine ⟨w2, fun a' ha => ?_⟩
    obtain ⟨a1, s1', r1⟩ := b2 a' ha
    obtain ⟨a, s0, r0⟩ := b1 a1 s1'
    exact ⟨a, s0, r0.trans' r1⟩

/-- In every state the threads that wait can be taken in some order. -/
theorem Sim.exists {F : FloatOps} {m : Model} {t : Tbl} {th : Nat → Pos} (hw : Wf m t th) : ∃ a, Sim F m t th a := by
  obtain ⟨N, hN⟩ := hw.fin
  let σ : Nat → List Nat := fun i => (List.range N).filter fun n => match th n with | .found j _ => j == i | _ => false
  have hmem : ∀ i n, n ∈ σ i ↔ ∃ s, th n = .found i s := by
    intro i n
    simp only [σ, List.mem_filter, List.mem_range]
    constructor
    · rintro ⟨_, h⟩
      split at h
      · rename_i j s hs
        have : j = i := by simpa using h
        subst this
        exact ⟨s, hs⟩
      · cases h
    · rintro ⟨s, hs⟩
      refine ⟨?_, by simp [hs]⟩
      rcases Nat.lt_or_ge n N with h | h
      · exact h
      · rw [hN n h] at hs
        cases hs
  have hnd : ∀ i, (σ i).Nodup := fun i => List.Pairwise.filter _ List.nodup_range
  -- the answers in this order
  have ex : ∀ (i : Nat) (l : List Nat) (x : Data), l.Nodup → (∀ n ∈ l, ∃ s, th n = .found i s) →
      ∃ res, Acts F m th res i l x := by
    intro i l
    induction l with
    | nil => exact fun _ _ _ => ⟨fun _ => .empty, trivial⟩
    | cons n l ih =>
      intro x hn hl
      obtain ⟨s, hs⟩ := hl n (by simp)
      obtain ⟨n1, n2⟩ := List.nodup_cons.1 hn
      obtain ⟨res, hr⟩ := ih (rowAct F m s x).1 n2 (fun n' h => hl n' (by simp [h]))
      refine ⟨upd res n (rowAct F m s x).2, s, hs, upd_same _ _ _, hr.congr ?_⟩
      intro n' hn'
      exact ⟨rfl, (upd_other _ _ (by rintro rfl; exact n1 hn')).symm⟩
  have ex' : ∀ i, ∃ res, ∀ r, t.heap[i]? = some r → Acts F m th res i (σ i) (RowObj.data r) := by
    intro i
    cases hr : t.heap[i]? with
    | none => exact ⟨fun _ => .empty, fun r h => by cases h⟩
    | some r =>
      obtain ⟨res, h⟩ := ex i (σ i) (RowObj.data r) (hnd i) (fun n hn => (hmem i n).1 hn)
      exact ⟨res, fun r' h' => by cases h'; exact h⟩
  let res : Nat → Reply := fun n => match th n with | .found i _ => Classical.choose (ex' i) n | _ => .empty
  refine ⟨_, res, σ, fun i _ => ⟨hnd i, hmem i, fun r hr => ?_⟩, rfl⟩
  refine (Classical.choose_spec (ex' i) r hr).congr ?_
  intro n hn
  obtain ⟨s, hs⟩ := (hmem i n).1 hn
  refine ⟨rfl, ?_⟩
  simp only [res, hs]

/-! ### Theorems -/

/-- The statements one after the other, as in C31. -/
def tableObj (F : FloatOps) (order : List (Key × Nat) → List (Key × Nat)) : Obj Tbl Stmt Reply := ⟨exec F order⟩

theorem of_contents {F : FloatOps} {order : List (Key × Nat) → List (Key × Nat)} {t : Tbl} (ht : TWf t)
    {es : List (Ev Stmt Reply)} (hn : NoAll es) (h : Linearizable (conObj F t.model) (cont t) es) :
    Linearizable (tableObj F order) t es := by
  obtain ⟨a, h⟩ := h
  suffices hs : ∃ t', TWf t' ∧ t'.model = t.model ∧ cont t' = a.q ∧ (∀ n fs l, a.thr n ≠ .pend (.selectAll fs l)) ∧
      ARun (tableObj F order) ⟨t, fun _ => .idle⟩ es ⟨t', a.thr⟩ by
    obtain ⟨t', _, _, _, _, h⟩ := hs
    exact ⟨_, h⟩
  generalize ha : (⟨cont t, fun _ => .idle⟩ : ASt Content Stmt Reply) = a0 at h
  induction h with
  | refl => subst ha; exact ⟨t, ht, rfl, rfl, by simp, .refl _⟩
  | tail _ hs ih =>
    obtain ⟨t', w, hm, hc, hp, hr⟩ := ih (fun n fs l hmem => hn n fs l (List.mem_append_left _ hmem))
    cases hs with
    | @call u op hi =>
      refine ⟨t', w, hm, hc, ?_, hr.tail (.call hi)⟩
      intro n fs l
      simp only
      by_cases e : n = u
      · subst e
        rw [upd_same]
        intro he
        cases he
        exact hn n fs l (by simp)
      · rw [upd_other _ _ e]; exact hp n fs l
    | @lin u op hi =>
      obtain ⟨k1, k2, k3, k4⟩ := exec_cont (F := F) (order := order) w (s := op)
        (by rintro fs l rfl; exact hp u fs l hi)
      rw [hc, hm] at k3 k4
      refine ⟨(exec F order t' op).1, k1, k2.trans hm, k3, ?_, ?_⟩
      · intro n fs l
        simp only
        by_cases e : n = u
        · subst e; rw [upd_same]; simp
        · rw [upd_other _ _ e]; exact hp n fs l
      · have := hr.tail (AStep.lin (O := tableObj F order) (a := ⟨t', _⟩) hi)
        simp only [tableObj, k4] at this
        exact this
    | @ret u r hi =>
      refine ⟨t', w, hm, hc, ?_, hr.tail (.ret hi)⟩
      intro n fs l
      simp only
      by_cases e : n = u
      · subst e; rw [upd_same]; simp
      · rw [upd_other _ _ e]; exact hp n fs l

/-- **C57 (partial).** Any number of clients send INSERT, UPDATE, DELETE and SELECT statements to one model at the same time, and
their steps are interleaved in any way, also with the background service: what clients see can be seen of the same statements
executed one after the other, each at an instant between its sending and its answer. Missing: `SELECT ALL`. -/
theorem C57_linearizable_partial {F : FloatOps} {order : List (Key × Nat) → List (Key × Nat)} {t : Tbl} (ht : TWf t)
    {os : List Sch} {s : St} {es : List (Ev Stmt Reply)} (h : scheds F order os (.start t) = some (s, es)) (hn : NoAll es) :
    Linearizable (tableObj F order) t es := by
  have hw : Wf t.model t (fun _ => .idle) := ⟨rfl, ht, ⟨0, fun _ _ => rfl⟩, fun _ => trivial⟩
  obtain ⟨w, b⟩ := scheds_back (s := .start t) hw h hn
  obtain ⟨a', ha'⟩ := Sim.exists (F := F) w
  obtain ⟨a, ⟨res, σ, _, rfl⟩, r⟩ := b a' ha'
  exact of_contents ht hn ⟨a', r⟩

end Verif.Dml.Par
