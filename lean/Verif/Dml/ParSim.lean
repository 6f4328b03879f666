import Verif.Dml.ParLemmas
/-!
Statements at the same time: every step can be simulated backwards.
-/
namespace Verif.Dml.Par
open Verif.Gns (Model)
open Verif.Conc (Ev Obj ASt AThr AStep ARun Linearizable upd upd_same upd_other)

/-- The key of the row that UPDATE and SELECT work on. -/
def stKey (m : Model) : Stmt → Option Key
  | .update _ w => resolveWhere m w
  | .select _ w => resolveWhere m w
  | _ => none

theorem apply_at {F : FloatOps} {m : Model} {A : Content} {s : Stmt} {k : Key} {x : Data}
    (hw : stKey m s = some k) (hx : A k = some x) :
    apply F m A s = (setC A k (some (rowAct F m s x).1), (rowAct F m s x).2) := by
  cases s <;> simp only [stKey, reduceCtorEq] at hw <;> exact applyRow_at hw hx

def PosOk (m : Model) (t : Tbl) : Pos → Prop
  | .called s => ∀ fs l, s ≠ .selectAll fs l
  | .insert d k x => prepareInsert m d = .ok (k, x)
  | .insertV _ d k x => prepareInsert m d = .ok (k, x)
  | .found i s => ∃ r, t.heap[i]? = some r ∧ stKey m s = some r.key
  | .reading _ _ _ => False
  | _ => True

/-- Rows stay where they are. -/
def Keeps (t t' : Tbl) : Prop := ∀ (i : Nat) (r : RowObj), t.heap[i]? = some r → ∃ r' : RowObj, t'.heap[i]? = some r' ∧ r'.key = r.key

theorem Keeps.refl {t t' : Tbl} (h : t'.heap = t.heap) : Keeps t t' := fun i r hr => ⟨r, by rw [h]; exact hr, rfl⟩

theorem Keeps.add {t t' : Tbl} {r : RowObj} (h : t'.heap = t.heap ++ [r]) : Keeps t t' := by
  intro i x hx
  refine ⟨x, ?_, rfl⟩
  rw [h, List.getElem?_append_left (List.getElem?_eq_some_iff.1 hx).1, hx]

theorem Keeps.set {t t' : Tbl} {i : Nat} {r r' : RowObj} (hr : t.heap[i]? = some r) (h : t'.heap = t.heap.set i r')
    (hk : r'.key = r.key) : Keeps t t' := by
  intro j x hx
  rw [h, List.getElem?_set]
  split
  · rename_i e
    subst e
    rw [hr] at hx
    cases hx
    exact ⟨r', by simp [(List.getElem?_eq_some_iff.1 hr).1], hk⟩
  · exact ⟨x, hx, rfl⟩

theorem PosOk.keep {m : Model} {t t' : Tbl} (h : Keeps t t') {p : Pos} (hp : PosOk m t p) : PosOk m t' p := by
  cases p <;> try exact hp
  obtain ⟨r, h1, h2⟩ := hp
  obtain ⟨r', h3, h4⟩ := h _ _ h1
  exact ⟨r', h3, by rw [h4]; exact h2⟩

/-- The state of the table and the threads. -/
structure Wf (m : Model) (t : Tbl) (th : Nat → Pos) : Prop where
  model : t.model = m
  twf : TWf t
  fin : ∃ N, ∀ n, N ≤ n → th n = .idle
  pos : ∀ n, PosOk m t (th n)

theorem Wf.upd {m : Model} {t t' : Tbl} {th : Nat → Pos} (h : Wf m t th) (hm : t'.model = t.model) (ht : TWf t')
    (hk : Keeps t t') {n : Nat} {p : Pos} (hp : PosOk m t' p) : Wf m t' (upd th n p) := by
  refine ⟨by rw [hm, h.model], ht, ?_, ?_⟩
  · obtain ⟨N, hN⟩ := h.fin
    refine ⟨max N (n + 1), fun x hx => ?_⟩
    rw [upd_other _ _ (by omega)]
    exact hN x (by omega)
  · intro x
    by_cases e : x = n
    · subst e; rw [upd_same]; exact hp
    · rw [upd_other _ _ e]; exact (h.pos x).keep hk

/-! ### The relation -/

/-- What a thread looks like from outside: a statement that found a row that was deleted meanwhile counts as done. -/
def view (t : Tbl) (res : Nat → Reply) (n : Nat) : Pos → AThr Stmt Reply
  | .idle => .idle
  | .called s => .pend s
  | .insert d _ _ => .pend (.insert d)
  | .insertV _ d _ _ => .pend (.insert d)
  | .delete w => .pend (.delete w)
  | .deleteV _ w => .pend (.delete w)
  | .found i s => if i ∈ rowsOf t then .pend s else .done (res n)
  | .push _ => .done .empty
  | .reading _ _ _ => .idle
  | .done r => .done r

/-- The answers of threads that will act on a row, one after the other. -/
def Acts (F : FloatOps) (m : Model) (th : Nat → Pos) (res : Nat → Reply) (i : Nat) : List Nat → Data → Prop
  | [], _ => True
  | n :: l, x => ∃ s, th n = .found i s ∧ res n = (rowAct F m s x).2 ∧ Acts F m th res i l (rowAct F m s x).1

structure Orphan (F : FloatOps) (m : Model) (t : Tbl) (th : Nat → Pos) (res : Nat → Reply) (i : Nat) (l : List Nat) : Prop where
  nodup : l.Nodup
  mem : ∀ n, n ∈ l ↔ ∃ s, th n = .found i s
  acts : ∀ r, t.heap[i]? = some r → Acts F m th res i l (RowObj.data r)

def Sim (F : FloatOps) (m : Model) (t : Tbl) (th : Nat → Pos) (a : ASt Content Stmt Reply) : Prop :=
  ∃ (res : Nat → Reply) (σ : Nat → List Nat), (∀ i, i ∉ rowsOf t → Orphan F m t th res i (σ i)) ∧
    a = ⟨cont t, fun n => view t res n (th n)⟩

theorem Acts.congr {F : FloatOps} {m : Model} {th th' : Nat → Pos} {res res' : Nat → Reply} {i : Nat} :
    ∀ {l : List Nat} {x : Data}, (∀ n ∈ l, th n = th' n ∧ res n = res' n) → Acts F m th res i l x → Acts F m th' res' i l x
  | [], _, _, _ => trivial
  | n :: l, x, h, ⟨s, h1, h2, h3⟩ =>
    ⟨s, by rw [← (h n (by simp)).1]; exact h1, by rw [← (h n (by simp)).2]; exact h2,
      Acts.congr (fun k hk => h k (by simp [hk])) h3⟩

theorem run_refl {F : FloatOps} {m : Model} (a : ASt Content Stmt Reply) : ARun (conObj F m) a [] a := .refl _

/-- A step of one thread that does not concern rows that were deleted. -/
theorem back {F : FloatOps} {m : Model} {t t' : Tbl} {th th' : Nat → Pos} (hw : Wf m t th) {n : Nat} {p p' : Pos}
    (hp : th n = p) (hth : th' = upd th n p')
    (hrows : ∀ i, i < t.heap.length → (i ∈ rowsOf t' ↔ i ∈ rowsOf t))
    (hheap : ∀ i, i ∉ rowsOf t → i < t.heap.length → (t'.heap[i]?).map RowObj.data = (t.heap[i]?).map RowObj.data)
    (hpl : ∀ i s, p = .found i s → i ∈ rowsOf t) (hpl' : ∀ i s, p' = .found i s → i ∈ rowsOf t')
    {a' : ASt Content Stmt Reply} (h : Sim F m t' th' a')
    (hlin : (cont t' = cont t ∧ ∀ res, view t res n p = view t' res n p') ∨
      ∃ s r, (∀ res, view t res n p = .pend s) ∧ (∀ res, view t' res n p' = .done r) ∧ apply F m (cont t) s = (cont t', r)) :
    ∃ a, Sim F m t th a ∧ ARun (conObj F m) a [] a' := by
  subst hp hth
  obtain ⟨res, σ, h1, rfl⟩ := h
  have hlt : ∀ {x i s}, th x = .found i s → i < t.heap.length := by
    intro x i s hx
    have := hw.pos x
    rw [hx] at this
    obtain ⟨r, hr, _⟩ := this
    exact (List.getElem?_eq_some_iff.1 hr).1
  have hview : ∀ x, x ≠ n → view t res x (th x) = view t' res x (upd th n p' x) := by
    intro x hx
    rw [upd_other _ _ hx]
    cases hx : th x <;> try rfl
    rename_i i s
    have := hrows i (hlt hx)
    simp only [view, this]
  refine ⟨⟨cont t, fun x => view t res x (th x)⟩, ⟨res, fun i => if i < t.heap.length then σ i else [], ?_, rfl⟩, ?_⟩
  · intro i hi
    by_cases hl : i < t.heap.length
    · have ho := h1 i (fun h => hi ((hrows i hl).1 h))
      simp only [hl, if_true]
      have hmem : ∀ x, x ∈ σ i ↔ ∃ s, th x = .found i s := by
        intro x
        rw [ho.mem]
        by_cases e : x = n
        · subst e
          rw [upd_same]
          constructor
          · rintro ⟨s, hs⟩
            exact absurd ((hrows i hl).1 (hpl' i s hs)) hi
          · rintro ⟨s, hs⟩
            exact absurd (hpl i s hs) hi
        · rw [upd_other _ _ e]
      refine ⟨ho.nodup, hmem, ?_⟩
      intro r hr
      have hd := hheap i hi hl
      rw [hr, Option.map_some, Option.map_eq_some_iff] at hd
      obtain ⟨r', hr', hd⟩ := hd
      rw [← hd]
      refine (ho.acts r' hr').congr ?_
      intro x hx
      have : x ≠ n := by
        rintro rfl
        obtain ⟨s, hs⟩ := (hmem x).1 hx
        exact hi (hpl i s hs)
      exact ⟨upd_other _ _ this, rfl⟩
    · simp only [hl, if_false]
      refine ⟨by simp, ?_, fun _ _ => trivial⟩
      intro x
      simp only [List.not_mem_nil, false_iff]
      rintro ⟨s, hs⟩
      exact hl (hlt hs)
  · rcases hlin with ⟨e1, e2⟩ | ⟨s, r, e1, e2, e3⟩
    · have : (⟨cont t, fun x => view t res x (th x)⟩ : ASt Content Stmt Reply) =
          ⟨cont t', fun x => view t' res x (upd th n p' x)⟩ := by
        rw [e1]
        congr 1
        funext x
        by_cases e : x = n
        · subst e; rw [upd_same]; exact e2 res
        · exact hview x e
      rw [this]
      exact .refl _
    · have hs : AStep (conObj F m) ⟨cont t, fun x => view t res x (th x)⟩ none
          ⟨cont t', fun x => view t' res x (upd th n p' x)⟩ := by
        have := AStep.lin (O := conObj F m) (a := ⟨cont t, fun x => view t res x (th x)⟩) (t := n) (op := s) (e1 res)
        simp only [conObj, e3] at this
        have he : upd (fun x => view t res x (th x)) n (.done r) = fun x => view t' res x (upd th n p' x) := by
          funext x
          by_cases e : x = n
          · subst e; rw [upd_same, upd_same, e2 res]
          · rw [upd_other _ _ e]; exact hview x e
        rw [he] at this
        exact this
      have := (ARun.refl (O := conObj F m) _).tail hs
      simpa using this

/-- A thread acts on a row that was deleted. -/
theorem back_orphan {F : FloatOps} {m : Model} {t t' : Tbl} {th : Nat → Pos} (hw : Wf m t th) {n i : Nat} {s : Stmt}
    {r r' : RowObj} {p' : Pos} (hp : th n = .found i s) (hi : i ∉ rowsOf t) (hr : t.heap[i]? = some r)
    (hidx : t'.idx = t.idx) (hheap : t'.heap = t.heap.set i r') (hd : RowObj.data r' = (rowAct F m s (RowObj.data r)).1)
    (hv : ∀ res, view t' res n p' = .done (rowAct F m s (RowObj.data r)).2) (hpl' : ∀ i s, p' ≠ .found i s)
    {a' : ASt Content Stmt Reply} (h : Sim F m t' (upd th n p') a') : Sim F m t th a' := by
  obtain ⟨res, σ, h1, rfl⟩ := h
  have hrows : rowsOf t' = rowsOf t := by rw [rowsOf, rowsOf, hidx]
  have hlt := (List.getElem?_eq_some_iff.1 hr).1
  have hcont : cont t' = cont t := by
    funext k
    simp only [cont, hidx, hheap, List.getElem?_set]
    cases hk : kget t.idx k with
    | none => rfl
    | some j =>
      have : i ≠ j := by rintro rfl; exact hi (hw.twf.mem.2 ⟨k, hk⟩)
      simp [this]
  have hni : ∀ j, j ∉ rowsOf t → n ∉ σ j := by
    intro j hj hn
    obtain ⟨s', hs'⟩ := ((h1 j (by rw [hrows]; exact hj)).mem n).1 hn
    rw [upd_same] at hs'
    exact hpl' _ _ hs'
  refine ⟨upd res n (rowAct F m s (RowObj.data r)).2, fun j => if j = i then n :: σ i else σ j, ?_, ?_⟩
  · intro j hj
    have ho := h1 j (by rw [hrows]; exact hj)
    by_cases e : j = i
    · subst e
      simp only [if_true]
      refine ⟨List.nodup_cons.2 ⟨hni j hj, ho.nodup⟩, ?_, ?_⟩
      · intro x
        rw [List.mem_cons, ho.mem]
        by_cases e : x = n
        · subst e; simp [hp]
        · rw [upd_other _ _ e]; simp [e]
      · intro r0 hr0
        rw [hr] at hr0
        cases hr0
        refine ⟨s, hp, upd_same _ _ _, ?_⟩
        have hr' : t'.heap[j]? = some r' := by rw [hheap]; simp [hlt]
        have := ho.acts r' hr'
        rw [hd] at this
        refine this.congr ?_
        intro x hx
        have : x ≠ n := by rintro rfl; exact hni j hj hx
        exact ⟨upd_other _ _ this, (upd_other _ _ this).symm⟩
    · simp only [e, if_false]
      refine ⟨ho.nodup, ?_, ?_⟩
      · intro x
        rw [ho.mem]
        by_cases e' : x = n
        · subst e'
          rw [upd_same, hp]
          constructor
          · rintro ⟨s', hs'⟩; exact absurd hs' (hpl' _ _)
          · rintro ⟨s', hs'⟩; cases hs'; exact absurd rfl e
        · rw [upd_other _ _ e']
      · intro r0 hr0
        have hr' : t'.heap[j]? = some r0 := by
          rw [hheap, List.getElem?_set, if_neg (fun h => e h.symm)]; exact hr0
        refine (ho.acts r0 hr').congr ?_
        intro x hx
        have : x ≠ n := by rintro rfl; exact hni j hj hx
        exact ⟨upd_other _ _ this, (upd_other _ _ this).symm⟩
  · rw [hcont]
    congr 1
    funext x
    by_cases e : x = n
    · subst e
      rw [upd_same, hv, hp]
      simp only [view, hi, if_false, upd_same]
    · rw [upd_other _ _ e]
      cases th x <;> try rfl
      simp only [view, hrows, upd_other _ _ e]

/-- The threads that wait for a row do what they want to do. -/
theorem run_acts {F : FloatOps} {m : Model} {th : Nat → Pos} {res : Nat → Reply} {i : Nat} {k : Key} :
    ∀ {l : List Nat} {x : Data} {A : Content} {v : Nat → AThr Stmt Reply}, l.Nodup → A k = some x →
    (∀ n ∈ l, ∀ s, th n = .found i s → v n = .pend s ∧ stKey m s = some k) → Acts F m th res i l x →
    ∃ y, ARun (conObj F m) ⟨A, v⟩ [] ⟨setC A k (some y), fun n => if n ∈ l then .done (res n) else v n⟩
  | [], x, A, v, _, hA, _, _ => by
    refine ⟨x, ?_⟩
    have : setC A k (some x) = A := by
      funext y
      simp only [setC]
      split
      · rename_i e; subst e; exact hA.symm
      · rfl
    simp only [this, List.not_mem_nil, if_false]
    exact .refl _
  | n :: l, x, A, v, hn, hA, hv, ⟨s, h1, h2, h3⟩ => by
    obtain ⟨n1, n2⟩ := List.nodup_cons.1 hn
    obtain ⟨v1, v2⟩ := hv n (by simp) s h1
    have hs := AStep.lin (O := conObj F m) (a := ⟨A, v⟩) (t := n) (op := s) v1
    simp only [conObj, apply_at v2 hA] at hs
    rw [← h2] at hs
    obtain ⟨y, hy⟩ := run_acts (k := k) (A := setC A k (some (rowAct F m s x).1)) (v := upd v n (.done (res n))) n2
      (by simp [setC])
      (by
        intro n' hn' s' hs'
        rw [upd_other _ _ (by rintro rfl; exact n1 hn')]
        exact hv n' (by simp [hn']) s' hs') h3
    refine ⟨y, ?_⟩
    have e1 : setC (setC A k (some (rowAct F m s x).1)) k (some y) = setC A k (some y) := by
      funext z; simp only [setC]; split <;> rfl
    have e2 : (fun x => if x ∈ l then AThr.done (res x) else upd v n (.done (res n)) x) =
        fun x => if x ∈ n :: l then AThr.done (res x) else v x := by
      funext x
      by_cases e : x = n
      · subst e; simp
      · simp [e]
    rw [e1, e2] at hy
    have h0 : ARun (conObj F m) ⟨A, v⟩ ([] ++ (none : Option (Ev Stmt Reply)).toList) _ := (ARun.refl _).tail hs
    have := Conc.ARun.trans' h0 hy
    simpa using this

/-- A row is deleted: the threads that found it act just before. -/
theorem back_delete {F : FloatOps} {m : Model} {t t' : Tbl} {th : Nat → Pos} (hw : Wf m t th) {n v i : Nat} {w : Where}
    {k : Key} (hp : th n = .deleteV v w) (hk : resolveWhere m w = some k) (hi : kget t.idx k = some i)
    (ht' : t' = { t with idx := kdel t.idx k }) {d : Delta} {a' : ASt Content Stmt Reply}
    (h : Sim F m t' (upd th n (.push d)) a') : ∃ a, Sim F m t th a ∧ ARun (conObj F m) a [] a' := by
  obtain ⟨res, σ, h1, rfl⟩ := h
  obtain ⟨r, hr, hkey, hc⟩ := hw.twf.cont_some hi
  have hlive : i ∈ rowsOf t := hw.twf.mem.2 ⟨k, hi⟩
  have hdel : ∀ j, j ∈ rowsOf t' ↔ j ∈ rowsOf t ∧ j ≠ i := by
    intro j
    rw [ht']
    exact rowsOf_del hw.twf hi t.ver t.queue
  have hheap : t'.heap = t.heap := by rw [ht']
  have hcont : cont t' = setC (cont t) k none := by rw [ht']; exact cont_del hw.twf k t.ver t.queue
  have ho := h1 i (fun h => ((hdel i).1 h).2 rfl)
  have hmem : ∀ x, x ∈ σ i ↔ ∃ s, th x = .found i s := by
    intro x
    rw [ho.mem]
    by_cases e : x = n
    · subst e; rw [upd_same, hp]; simp
    · rw [upd_other _ _ e]
  have hnn : ∀ j, n ∉ σ j ∨ j ∈ rowsOf t := by
    intro j
    by_cases hj : j ∈ rowsOf t
    · exact .inr hj
    · refine .inl fun hn => ?_
      obtain ⟨s, hs⟩ := ((h1 j (fun h => hj ((hdel j).1 h).1)).mem n).1 hn
      rw [upd_same] at hs
      cases hs
  have hni : n ∉ σ i := by
    intro hn
    obtain ⟨s, hs⟩ := (hmem n).1 hn
    rw [hp] at hs
    cases hs
  refine ⟨⟨cont t, fun x => view t res x (th x)⟩, ⟨res, σ, ?_, rfl⟩, ?_⟩
  · intro j hj
    have hoj := h1 j (fun h => hj ((hdel j).1 h).1)
    refine ⟨hoj.nodup, ?_, ?_⟩
    · intro x
      rw [hoj.mem]
      by_cases e : x = n
      · subst e; rw [upd_same, hp]; simp
      · rw [upd_other _ _ e]
    · intro r0 hr0
      refine (hoj.acts r0 (by rw [hheap]; exact hr0)).congr ?_
      intro x hx
      have : x ≠ n := by
        rintro rfl
        rcases hnn j with h | h
        · exact h hx
        · exact hj h
      exact ⟨upd_other _ _ this, rfl⟩
  · have hact : Acts F m th res i (σ i) (RowObj.data r) := by
      refine (ho.acts r (by rw [hheap]; exact hr)).congr ?_
      intro x hx
      have : x ≠ n := by rintro rfl; exact hni hx
      exact ⟨upd_other _ _ this, rfl⟩
    obtain ⟨y, hy⟩ := run_acts (F := F) (m := m) (v := fun x => view t res x (th x)) ho.nodup hc
      (by
        intro x hx s hs
        refine ⟨by simp [hs, view, hlive], ?_⟩
        have := hw.pos x
        rw [hs] at this
        obtain ⟨r0, g1, g2⟩ := this
        rw [hr] at g1
        cases g1
        rw [g2, hkey]) hact
    have hs := AStep.lin (O := conObj F m)
      (a := ⟨setC (cont t) k (some y), fun x => if x ∈ σ i then .done (res x) else view t res x (th x)⟩)
      (t := n) (op := .delete w) (by simp [hni, hp, view])
    have happ : apply F m (setC (cont t) k (some y)) (.delete w) = (setC (setC (cont t) k (some y)) k none, .empty) := by
      rw [apply, hk]
      simp [setC]
    simp only [conObj, happ] at hs
    have e1 : setC (setC (cont t) k (some y)) k none = cont t' := by
      rw [hcont]; funext z; simp only [setC]; split <;> rfl
    have e2 : upd (fun x => if x ∈ σ i then AThr.done (res x) else view t res x (th x)) n (.done .empty) =
        fun x => view t' res x (upd th n (.push d) x) := by
      funext x
      by_cases e : x = n
      · subst e; rw [upd_same, upd_same]; rfl
      · rw [upd_other _ _ e, upd_other _ _ e]
        by_cases hx : x ∈ σ i
        · obtain ⟨s, hs⟩ := (hmem x).1 hx
          have : i ∉ rowsOf t' := fun h => ((hdel i).1 h).2 rfl
          simp [hx, hs, view, this]
        · simp only [hx, if_false]
          cases hth : th x <;> try rfl
          rename_i j s
          have : j ≠ i := by rintro rfl; exact hx ((hmem x).2 ⟨s, hth⟩)
          simp only [view, hdel, ne_eq, this, not_false_eq_true, and_true]
    rw [e1, e2] at hs
    have := hy.tail hs
    simpa using this

end Verif.Dml.Par
