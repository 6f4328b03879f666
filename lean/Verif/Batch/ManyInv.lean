import Verif.Batch.ManyLog
/-!
C78: the statements and the pending changes, step by step.
-/
namespace Verif.Batch.Many
open Verif.Gns (Model)
open Verif.Dml (Key Cells RowObj DKind Delta Tbl FloatOps Stmt Where InsData Reply ATable WhereKey whereKey_iff kget kdel kget_mem
  kget_append kget_kdel resolveWhere resolve_id)
open Verif.Dml.Par (Pos St Wf TWf rowsOf stKey Keeps)
open Verif.Conc (Ev upd upd_same upd_other)

theorem Clash.symm {m : Model} {a b : Stmt} (h : Clash m a b) : Clash m b a := by
  obtain ⟨k, h1, h2, h3⟩ := h
  exact ⟨k, h2, h1, fun e => h3 e.symm⟩

/-- What an INSERT will put. -/
structure NewRow (m : Model) (k : Key) (c : Cells) : Prop where
  key : k.uniq = m.pkTag.uniq
  pkc : c m.pk = none
  tags : CTags c

/-- What is known at every position of a statement. -/
def PosInv (m : Model) (t : Tbl) (o : Option Stmt) : Pos → Prop
  | .idle => o = none
  | .called st => o = some st ∧ StmtTags st
  | .insert d k c => o = some (.insert d) ∧ Touches m (.insert d) k ∧ NewRow m k c
  | .insertV v d k c => o = some (.insert d) ∧ Touches m (.insert d) k ∧ NewRow m k c ∧ v < t.ver
  | .delete w => o = some (.delete w)
  | .deleteV v w => o = some (.delete w) ∧ v < t.ver
  | .found i st => o = some st ∧ ((∃ as w, st = .update as w) → i ∈ rowsOf t)
  | .push d => ∃ st r, o = some st ∧ t.heap[d.row]? = some r ∧ Touches m st r.key ∧ d.ver < t.ver ∧
      ((d.kind = .delete ∧ isDel st = true ∧ kget t.idx r.key = none) ∨
        (d.kind ≠ .delete ∧ isDel st = false ∧ kget t.idx r.key = some d.row))
  | .reading _ _ _ => False
  | .done _ => True

/-- The table with its statements, and the file. -/
structure Dur (m : Model) (s : St) (os : Nat → Option Stmt) (recs : List Rec) (R : Tbl) : Prop where
  log : Log m s.t recs R
  ahead : Ahead s.t
  pos : ∀ n, PosInv m s.t (os n) (s.th n)
  apart : ∀ n n' st st', n ≠ n' → os n = some st → os n' = some st' → ¬ Clash m st st'
  eq : ∀ k, (∀ n d, s.th n = .push d → ¬ Eff s.t d k) → final s.t recs R k = vw s.t k
  eqp : ∀ n d k, s.th n = .push d → Eff s.t d k → ∀ A, adelta s.t A d k = vw s.t k
  one : ∀ n n' d d' k, s.th n = .push d → s.th n' = .push d' → Eff s.t d k → Eff s.t d' k → n = n'
  pAbove : ∀ n d k, s.th n = .push d → Eff s.t d k → Below s.t recs R k d.ver
  iAbove : ∀ n v d k c, s.th n = .insertV v d k c → kget s.t.idx k = none → Below s.t recs R k v
  dAbove : ∀ n v w k, s.th n = .deleteV v w → WhereKey m w k → kget s.t.idx k ≠ none → Below s.t recs R k v

/-- The statement of the thread touches the key: only statements of the same kind do. -/
theorem Dur.kind {m : Model} {s : St} {os : Nat → Option Stmt} {recs : List Rec} {R : Tbl} (h : Dur m s os recs R) {n n' : Nat}
    (hn : n ≠ n') {st st' : Stmt} (h1 : os n = some st) (h2 : os n' = some st') {k : Key} (t1 : Touches m st k)
    (t2 : Touches m st' k) : isDel st = isDel st' := by
  rcases Decidable.em (isDel st = isDel st') with e | e
  · exact e
  · exact absurd ⟨k, t1, t2, e⟩ (h.apart n n' st st' hn h1 h2)

theorem PosInv.keep {m : Model} {t u : Tbl} (hv : t.ver ≤ u.ver) (hk : Keeps t u) (hu : TWf u) (ht : TWf t) {o : Option Stmt} {p : Pos}
    (hidx : ∀ k st, o = some st → Touches m st k → kget u.idx k = kget t.idx k ∨ (isDel st = false ∧ kget t.idx k = none) ∨
      (isDel st = true ∧ kget u.idx k = none))
    (hf : ∀ i st, p = .found i st → ∃ r, t.heap[i]? = some r ∧ stKey m st = some r.key)
    (h : PosInv m t o p) : PosInv m u o p := by
  cases p with
  | idle => exact h
  | called st => exact h
  | insert d k c => exact h
  | insertV v d k c => exact ⟨h.1, h.2.1, h.2.2.1, Nat.lt_of_lt_of_le h.2.2.2 hv⟩
  | delete w => exact h
  | deleteV v w => exact ⟨h.1, Nat.lt_of_lt_of_le h.2 hv⟩
  | found i st =>
    refine ⟨h.1, ?_⟩
    rintro ⟨as, w, rfl⟩
    obtain ⟨r, h1, h2⟩ := hf i _ rfl
    have hl := (ht.live h1).1 (h.2 ⟨as, w, rfl⟩)
    obtain ⟨r', g1, g2⟩ := hk i r h1
    rw [hu.live g1, g2]
    rcases hidx r.key _ h.1 (whereKey_iff.1 h2) with e | e | e
    · rw [e, hl]
    · rw [hl] at e; cases e.2
    · cases e.1
  | push d =>
    obtain ⟨st, r, h1, h2, h3, h4, h5⟩ := h
    obtain ⟨r', g1, g2⟩ := hk _ r h2
    refine ⟨st, r', h1, g1, by rw [g2]; exact h3, Nat.lt_of_lt_of_le h4 hv, ?_⟩
    rw [g2]
    rcases hidx r.key st h1 h3 with e | e | e
    · rw [e]; exact h5
    · rcases h5 with h5 | h5
      · rw [h5.2.1] at e; cases e.1
      · rw [h5.2.2] at e; cases e.2
    · rcases h5 with h5 | h5
      · exact .inl ⟨h5.1, h5.2.1, e.2⟩
      · rw [h5.2.1] at e; cases e.1
  | reading _ _ _ => exact h
  | done _ => trivial

theorem found_row {m : Model} {s : St} (hw : Wf m s.t s.th) (n : Nat) : ∀ i st, s.th n = .found i st →
    ∃ r, s.t.heap[i]? = some r ∧ stKey m st = some r.key := by
  intro i st h
  have := hw.pos n
  rw [h] at this
  exact this

/-- A step that changes neither rows nor index. -/
theorem Dur.quiet {m : Model} {s : St} {os os' : Nat → Option Stmt} {recs : List Rec} {R : Tbl} (h : Dur m s os recs R)
    (hw : Wf m s.t s.th) {n v : Nat} {p : Pos} {sh : List Nat} {ex : Bool} {he : List Nat} (hv : s.t.ver ≤ v)
    (hnp : ∀ d, s.th n ≠ .push d) (hnp' : ∀ d, p ≠ .push d) (hos : ∀ x, x ≠ n → os' x = os x)
    (hap : ∀ st, os' n = some st → ∀ x st', x ≠ n → os x = some st' → ¬ Clash m st st')
    (hp : PosInv m { s.t with ver := v } (os' n) p) (hi : ∀ a d k c, p = .insertV a d k c → a = s.t.ver)
    (hd : ∀ a w, p = .deleteV a w → a = s.t.ver) : Dur m ⟨{ s.t with ver := v }, upd s.th n p, sh, ex, he⟩ os' recs R := by
  have g : Grow s.t { s.t with ver := v } := .same rfl rfl hv rfl
  have hpush : ∀ {x d}, upd s.th n p x = .push d → s.th x = .push d ∧ x ≠ n := by
    intro x d hx
    by_cases e : x = n
    · subst e; rw [upd_same] at hx; exact absurd hx (hnp' d)
    · rw [upd_other _ _ e] at hx; exact ⟨hx, e⟩
  refine ⟨h.log.grow g h.log.rows, fun k i r h1 h2 => Nat.lt_of_lt_of_le (h.ahead k i r h1 h2) hv, ?_, ?_, ?_, ?_, ?_, ?_, ?_, ?_⟩
  · intro x
    by_cases e : x = n
    · subst e; simp only [upd_same]; exact hp
    · simp only [upd_other _ _ e, hos x e]
      exact (h.pos x).keep (u := { s.t with ver := v }) hv (.refl rfl) ⟨hw.twf.nodup, hw.twf.rows⟩ hw.twf (fun _ _ _ _ => .inl rfl) (found_row hw x)
  · intro x y st st' hxy hx hy
    by_cases e : x = n
    · subst e
      exact hap st hx y st' (fun e => hxy e.symm) (by rw [← hos y (fun e => hxy e.symm)]; exact hy)
    · by_cases e' : y = n
      · subst e'
        exact fun hc => hap st' hy x st e (by rw [← hos x e]; exact hx) hc.symm
      · rw [hos x e] at hx
        rw [hos y e'] at hy
        exact h.apart x y st st' hxy hx hy
  · intro k hk
    refine h.eq k ?_
    intro x d hx
    refine hk x d ?_
    have : x ≠ n := by rintro rfl; exact hnp d hx
    simp only [upd_other _ _ this, hx]
  · intro x d k hx
    exact h.eqp x d k (hpush hx).1
  · intro x y d d' k hx hy
    exact h.one x y d d' k (hpush hx).1 (hpush hy).1
  · intro x d k hx hf
    exact Below.grow h.log g (h.pAbove x d k (hpush hx).1 hf)
  · intro x a d k c hx hk
    refine Below.grow h.log g ?_
    by_cases e : x = n
    · subst e
      simp only [upd_same] at hx
      rw [hi a d k c hx]
      exact h.log.below k
    · simp only [upd_other _ _ e] at hx
      exact h.iAbove x a d k c hx hk
  · intro x a w k hx hk hk'
    refine Below.grow h.log g ?_
    by_cases e : x = n
    · subst e
      simp only [upd_same] at hx
      rw [hd a w hx]
      exact h.log.below k
    · simp only [upd_other _ _ e] at hx
      exact h.dAbove x a w k hx hk hk'

theorem final_grow {m : Model} {t u R : Tbl} {recs : List Rec} (h : Log m t recs R) (g : Grow t u) {k : Key}
    (hrow : ∀ (i : Nat) (r : RowObj), t.heap[i]? = some r → r.key ≠ k → u.heap[i]? = some r) {x : Key} (hx : x ≠ k) :
    final u recs R x = final t recs R x := by
  rw [final, final, g.queue, g.model]
  refine (fold_agree g.model.symm (fun y => y ≠ k) t.queue (fun _ _ => rfl) ?_ x hx).symm
  intro d hd
  have hr := List.getElem?_eq_getElem (h.qrow d hd)
  obtain ⟨s, h1, h2, _⟩ := g.heap _ _ hr
  refine ⟨_, s, hr, h1, h2.symm, ?_⟩
  intro hne
  have := hrow _ _ hr hne
  rw [h1] at this
  cases this
  exact ⟨rfl, rfl, rfl⟩

theorem adelta_grow {t u : Tbl} (g : Grow t u) {k : Key}
    (hrow : ∀ (i : Nat) (r : RowObj), t.heap[i]? = some r → r.key ≠ k → u.heap[i]? = some r) {x : Key} (hx : x ≠ k) {d : Delta}
    (hd : d.row < t.heap.length) (A : View) : adelta u A d x = adelta t A d x := by
  have hr := List.getElem?_eq_getElem hd
  obtain ⟨s, h1, h2, _⟩ := g.heap _ _ hr
  refine (fold_agree g.model.symm (fun y => y ≠ k) [d] (A := A) (B := A) (fun _ _ => rfl) ?_ x hx).symm
  intro y hy
  cases List.mem_singleton.1 hy
  refine ⟨_, s, hr, h1, h2.symm, ?_⟩
  intro hne
  have := hrow _ _ hr hne
  rw [h1] at this
  cases this
  exact ⟨rfl, rfl, rfl⟩

/-- A step that changes the row of one key. -/
theorem Dur.change {m : Model} {s : St} {os : Nat → Option Stmt} {recs : List Rec} {R : Tbl} (h : Dur m s os recs R)
    (hw : Wf m s.t s.th) {n : Nat} {u : Tbl} {d : Delta} {sh : List Nat} {ex : Bool} {he : List Nat} (hu : TWf u) (g : Grow s.t u)
    (hr : ∀ r ∈ u.heap, RowFine m r) {k : Key} {st : Stmt} (ho : os n = some st) (ht : Touches m st k)
    (hrow : ∀ (i : Nat) (r : RowObj), s.t.heap[i]? = some r → r.key ≠ k → u.heap[i]? = some r)
    (hidx : ∀ x, x ≠ k → kget u.idx x = kget s.t.idx x) (ha : Ahead u) (hnp : ∀ d, s.th n ≠ .push d)
    (hp : PosInv m u (some st) (.push d))
    (hk : kget u.idx k = kget s.t.idx k ∨ (isDel st = false ∧ kget s.t.idx k = none) ∨ (isDel st = true ∧ kget u.idx k = none))
    (hd : ∃ r, u.heap[d.row]? = some r ∧ r.key = k) (hno : ∀ x d', x ≠ n → s.th x = .push d' → ¬ Eff u d' k)
    (heff : Eff u d k) (heq : ∀ A, adelta u A d k = vw u k) (hb : Below s.t recs R k d.ver) :
    Dur m ⟨u, upd s.th n (.push d), sh, ex, he⟩ os recs R := by
  have hkeep : Keeps s.t u := fun i r h1 => by
    obtain ⟨r', h2, h3, _⟩ := g.heap i r h1
    exact ⟨r', h2, h3⟩
  have hpush : ∀ {x d'}, x ≠ n → upd s.th n (.push d) x = .push d' → s.th x = .push d' := by
    intro x d' e hx
    rw [upd_other _ _ e] at hx
    exact hx
  have hprow : ∀ {x d'}, s.th x = .push d' → d'.row < s.t.heap.length := by
    intro x d' hx
    have := h.pos x
    rw [hx] at this
    obtain ⟨_, r, _, h2, _⟩ := this
    exact (List.getElem?_eq_some_iff.1 h2).1
  have honly : ∀ {x}, Eff u d x → x = k := by
    rintro x ⟨r, h1, h2, _⟩
    obtain ⟨r', g1, g2⟩ := hd
    rw [h1] at g1
    cases g1
    exact h2.symm.trans g2
  have heffx : ∀ {x d'}, x ≠ k → d'.row < s.t.heap.length → (Eff u d' x ↔ Eff s.t d' x) := by
    intro x d' hx hl
    refine ⟨fun e => e.back g hl, ?_⟩
    rintro ⟨r, h1, h2, h3⟩
    exact ⟨r, hrow _ r h1 (by rw [h2]; exact hx), h2, h3⟩
  have hvw : ∀ x, x ≠ k → vw u x = vw s.t x := by
    intro x hx
    simp only [vw, hidx x hx, g.model]
    cases hi : kget s.t.idx x with
    | none => rfl
    | some i =>
      obtain ⟨r, h1, h2⟩ := hw.twf.rows hi
      simp [h1, hrow i r h1 (by rw [h2]; exact hx)]
  have hkind : ∀ {x st'}, x ≠ n → os x = some st' → Touches m st' k → isDel st' = isDel st := by
    intro x st' e hx ht'
    exact h.kind e hx ho ht' ht
  refine ⟨h.log.grow g hr, ha, ?_, h.apart, ?_, ?_, ?_, ?_, ?_, ?_⟩
  · intro x
    by_cases e : x = n
    · subst e; simp only [upd_same, ho]; exact hp
    · simp only [upd_other _ _ e]
      refine (h.pos x).keep g.ver hkeep hu hw.twf ?_ (found_row hw x)
      intro y st' h1 h2
      by_cases hy : y = k
      · subst hy
        rw [hkind e h1 h2]
        exact hk
      · exact .inl (hidx y hy)
  · intro x hx
    by_cases e : x = k
    · subst e
      exact absurd heff (hx n d (upd_same _ _ _))
    · rw [final_grow h.log g hrow e]
      rw [hvw x e]
      refine h.eq x ?_
      intro y d' hy
      have hyn : y ≠ n := by rintro rfl; exact hnp d' hy
      rw [← heffx e (hprow hy)]
      exact hx y d' (by simp only [upd_other _ _ hyn]; exact hy)
  · intro y d' x hy hf A
    by_cases e : y = n
    · subst e
      simp only [upd_same, Pos.push.injEq] at hy
      subst hy
      cases honly hf
      exact heq A
    · have hy' := hpush e hy
      have hx : x ≠ k := by rintro rfl; exact hno y d' e hy' hf
      show adelta u A d' x = vw u x
      rw [adelta_grow g hrow hx (hprow hy'), hvw x hx]
      exact h.eqp y d' x hy' ((heffx hx (hprow hy')).1 hf) A
  · intro y z d1 d2 x hy hz e1 e2
    by_cases ey : y = n
    · subst ey
      simp only [upd_same, Pos.push.injEq] at hy
      subst hy
      cases honly e1
      by_cases ez : z = y
      · exact ez.symm
      · exact absurd e2 (hno z d2 ez (hpush ez hz))
    · by_cases ez : z = n
      · subst ez
        simp only [upd_same, Pos.push.injEq] at hz
        subst hz
        cases honly e2
        exact absurd e1 (hno y d1 ey (hpush ey hy))
      · have hy' := hpush ey hy
        have hz' := hpush ez hz
        exact h.one y z d1 d2 x hy' hz' (e1.back g (hprow hy')) (e2.back g (hprow hz'))
  · intro y d' x hy hf
    by_cases e : y = n
    · subst e
      simp only [upd_same, Pos.push.injEq] at hy
      subst hy
      cases honly hf
      exact Below.grow h.log g hb
    · have hy' := hpush e hy
      exact Below.grow h.log g (h.pAbove y d' x hy' (hf.back g (hprow hy')))
  · intro y a d' x c hy hx
    by_cases e : y = n
    · subst e; simp only [upd_same, reduceCtorEq] at hy
    · simp only [upd_other _ _ e] at hy
      refine Below.grow h.log g (h.iAbove y a d' x c hy ?_)
      by_cases ex : x = k
      · subst ex
        rcases hk with e1 | e1 | e1
        · rw [← e1]; exact hx
        · exact e1.2
        · have hq := h.pos y
          rw [hy] at hq
          have := hkind e hq.1 hq.2.1
          rw [e1.1] at this
          cases this
      · rw [← hidx x ex]; exact hx
  · intro y a w x hy hwx hx
    by_cases e : y = n
    · subst e; simp only [upd_same, reduceCtorEq] at hy
    · simp only [upd_other _ _ e] at hy
      refine Below.grow h.log g (h.dAbove y a w x hy hwx ?_)
      by_cases ex : x = k
      · subst ex
        rcases hk with e1 | e1 | e1
        · rw [← e1]; exact hx
        · have hq := h.pos y
          rw [hy] at hq
          have := hkind e hq.1 hwx
          rw [e1.1] at this
          cases this
        · exact absurd e1.2 hx
      · rw [← hidx x ex]; exact hx

/-- The change is appended. -/
theorem Dur.push {m : Model} {s : St} {os : Nat → Option Stmt} {recs : List Rec} {R : Tbl} (h : Dur m s os recs R)
    (hw : Wf m s.t s.th) {n : Nat} {d : Delta} {sh : List Nat} {ex : Bool} {he : List Nat} (hn : s.th n = .push d) (r : Reply) :
    Dur m ⟨{ s.t with queue := s.t.queue ++ [d] }, upd s.th n (.done r), sh, ex, he⟩ os recs R := by
  have hq := h.pos n
  rw [hn] at hq
  obtain ⟨st, r0, q1, q2, q3, q4, q5⟩ := hq
  have hone : ∀ {x d' k}, x ≠ n → s.th x = .push d' → Eff s.t d' k → ¬ Eff s.t d k := by
    intro x d' k hx hx' e1 e2
    exact hx (h.one x n d' d k hx' hn e1 e2)
  have hpush : ∀ {x d'}, upd s.th n (.done r) x = .push d' → s.th x = .push d' ∧ x ≠ n := by
    intro x d' hx
    by_cases e : x = n
    · subst e; rw [upd_same] at hx; cases hx
    · rw [upd_other _ _ e] at hx; exact ⟨hx, e⟩
  have hbel : ∀ {k v}, Below s.t recs R k v → ¬ Eff s.t d k → Below { s.t with queue := s.t.queue ++ [d] } recs R k v := by
    intro k v hb hk
    refine ⟨hb.rest, hb.recs, ?_⟩
    intro x hx hf
    rcases List.mem_append.1 hx with hx | hx
    · exact hb.queue x hx hf
    · cases List.mem_singleton.1 hx; exact absurd hf hk
  have hkey : ∀ {k}, Eff s.t d k → k = r0.key := by
    rintro k ⟨r', h1, h2, _⟩
    rw [q2] at h1
    cases h1
    exact h2.symm
  refine ⟨h.log.push (List.getElem?_eq_some_iff.1 q2).1 q4 (fun k hk => h.pAbove n d k hn hk), h.ahead, ?_, h.apart, ?_, ?_, ?_, ?_, ?_, ?_⟩
  · intro x
    by_cases e : x = n
    · subst e; simp only [upd_same]; trivial
    · simp only [upd_other _ _ e]
      exact (h.pos x).keep (Nat.le_refl _) (.refl rfl) ⟨hw.twf.nodup, hw.twf.rows⟩ hw.twf (fun _ _ _ _ => .inl rfl) (found_row hw x)
  · intro k hk
    rw [final_push]
    rcases Classical.em (Eff s.t d k) with hf | hf
    · exact h.eqp n d k hn hf _
    · rw [adelta_other hf]
      refine h.eq k ?_
      intro x d' hx
      by_cases e : x = n
      · subst e; rw [hn] at hx; cases hx; exact hf
      · exact hk x d' (by simp only [upd_other _ _ e]; exact hx)
  · intro x d' k hx hf A
    exact h.eqp x d' k (hpush hx).1 hf A
  · intro x y d1 d2 k hx hy
    exact h.one x y d1 d2 k (hpush hx).1 (hpush hy).1
  · intro x d' k hx hf
    obtain ⟨h1, h2⟩ := hpush hx
    exact hbel (h.pAbove x d' k h1 hf) (hone h2 h1 hf)
  · intro x a d' k c hx hk
    have e : x ≠ n := by rintro rfl; simp only [upd_same, reduceCtorEq] at hx
    simp only [upd_other _ _ e] at hx
    refine hbel (h.iAbove x a d' k c hx hk) ?_
    intro hf
    have hk' := hkey hf
    subst hk'
    have hq := h.pos x
    rw [hx] at hq
    have hki := h.kind e hq.1 q1 hq.2.1 q3
    rcases q5 with q5 | q5
    · rw [q5.2.1] at hki; cases hki
    · have hk : kget s.t.idx r0.key = none := hk
      rw [q5.2.2] at hk; cases hk
  · intro x a w k hx hwk hk
    have e : x ≠ n := by rintro rfl; simp only [upd_same, reduceCtorEq] at hx
    simp only [upd_other _ _ e] at hx
    refine hbel (h.dAbove x a w k hx hwk hk) ?_
    intro hf
    have hk' := hkey hf
    subst hk'
    have hq := h.pos x
    rw [hx] at hq
    have hki := h.kind e hq.1 q1 (k := r0.key) hwk q3
    rcases q5 with q5 | q5
    · exact hk q5.2.2
    · rw [q5.2.1] at hki; cases hki

/-- The batch goes on. -/
theorem Dur.relog {m : Model} {s : St} {os : Nat → Option Stmt} {recs recs' : List Rec} {R R' : Tbl} (h : Dur m s os recs R)
    (hw : Wf m s.t s.th) {q : List Delta} (hl : Log m { s.t with queue := q } recs' R')
    (hf : final { s.t with queue := q } recs' R' = final s.t recs R)
    (hb : ∀ k v, Below s.t recs R k v → Below { s.t with queue := q } recs' R' k v) :
    Dur m { s with t := { s.t with queue := q } } os recs' R' := by
  refine ⟨hl, h.ahead, ?_, h.apart, ?_, h.eqp, h.one, ?_, ?_, ?_⟩
  · intro x
    exact (h.pos x).keep (Nat.le_refl _) (.refl rfl) ⟨hw.twf.nodup, hw.twf.rows⟩ hw.twf (fun _ _ _ _ => .inl rfl) (found_row hw x)
  · intro k hk
    rw [hf]
    exact h.eq k hk
  · exact fun x d k hx hk => hb _ _ (h.pAbove x d k hx hk)
  · exact fun x v d k c hx hk => hb _ _ (h.iAbove x v d k c hx hk)
  · exact fun x v w k hx hk hk' => hb _ _ (h.dAbove x v w k hx hk hk')

/-! ### The three changes -/

theorem rowList_fine {m : Model} {r : RowObj} (h : r.schema = m.deltas.length) : rowList m r = rowCells m.pk m.fields r.cells := by
  rw [rowList, resolve_id h]

/-- INSERT puts its row. -/
theorem Dur.insert {m : Model} {s : St} {os : Nat → Option Stmt} {recs : List Rec} {R : Tbl} (h : Dur m s os recs R)
    (hw : Wf m s.t s.th) {n v : Nat} {d : InsData} {k : Key} {c : Cells} {sh : List Nat} {ex : Bool} {he : List Nat}
    (hn : s.th n = .insertV v d k c) (hk : kget s.t.idx k = none) :
    Dur m ⟨{ s.t with heap := s.t.heap ++ [⟨k, c, s.t.model.deltas.length, v⟩], idx := s.t.idx ++ [(k, s.t.heap.length)] },
      upd s.th n (.push ⟨v, .insert, s.t.heap.length⟩), sh, ex, he⟩ os recs R := by
  have hq := h.pos n
  rw [hn] at hq
  obtain ⟨q1, q2, q3, q4⟩ := hq
  have hmod := h.log.model
  have hu : TWf { s.t with heap := s.t.heap ++ [⟨k, c, s.t.model.deltas.length, v⟩], idx := s.t.idx ++ [(k, s.t.heap.length)] } :=
    hw.twf.add hk (r := ⟨k, c, s.t.model.deltas.length, v⟩) rfl s.t.ver s.t.queue
  have hold : ∀ (i : Nat) (r : RowObj), s.t.heap[i]? = some r →
      (s.t.heap ++ [(⟨k, c, s.t.model.deltas.length, v⟩ : RowObj)])[i]? = some r := by
    intro i r hi
    rw [List.getElem?_append_left (List.getElem?_eq_some_iff.1 hi).1, hi]
  have hnew : (s.t.heap ++ [(⟨k, c, s.t.model.deltas.length, v⟩ : RowObj)])[s.t.heap.length]? = some ⟨k, c, s.t.model.deltas.length, v⟩ := by
    simp
  have hidx : ∀ x, kget (s.t.idx ++ [(k, s.t.heap.length)]) x = if x = k then some s.t.heap.length else kget s.t.idx x := by
    intro x
    rw [kget_append]
    by_cases e : x = k
    · subst e; rw [hk]; simp [kget]
    · rw [if_neg e]
      have e' : ¬ k = x := fun h => e h.symm
      cases kget s.t.idx x <;> simp [kget, e']
  refine h.change hw (k := k) (st := .insert d) hu ⟨rfl, rfl, Nat.le_refl _, fun i r hi => ⟨r, hold i r hi, rfl, Nat.le_refl _⟩⟩ ?_
    q1 q2 (fun i r hi _ => hold i r hi) (fun x hx => by simp only [hidx, if_neg hx]) ?_ (by rw [hn]; simp) ?_ ?_ ⟨_, hnew, rfl⟩ ?_
    ⟨_, hnew, rfl, .inr (Nat.le_refl _)⟩ ?_ (h.iAbove n v d k c hn hk)
  · intro r hr
    rcases List.mem_append.1 hr with hr | hr
    · exact h.log.rows r hr
    · cases List.mem_singleton.1 hr
      exact ⟨q3.key, by rw [hmod], q3.pkc, q3.tags⟩
  · intro x i r hx hi
    simp only [hidx] at hx
    by_cases e : x = k
    · rw [if_pos e] at hx
      cases hx
      simp only [hnew] at hi
      cases hi
      exact q4
    · rw [if_neg e] at hx
      obtain ⟨r', h1, _⟩ := hw.twf.rows hx
      have h2 := hold i r' h1
      simp only [h2] at hi
      cases hi
      exact h.ahead x i _ hx h1
  · exact ⟨_, _, rfl, hnew, q2, q4, .inr ⟨by simp, rfl, by simp only [hidx, if_true]⟩⟩
  · exact .inr (.inl ⟨rfl, hk⟩)
  · intro x d' hx hp hf
    have hpx := h.pos x
    rw [hp] at hpx
    obtain ⟨st', r', p1, p2, p3, p4, p5⟩ := hpx
    obtain ⟨r1, f1, f2, f3⟩ := hf
    have f1 : (s.t.heap ++ [(⟨k, c, s.t.model.deltas.length, v⟩ : RowObj)])[d'.row]? = some r1 := f1
    rw [hold _ _ p2] at f1
    cases f1
    rw [f2] at p3 p5
    have hki := h.kind hx p1 q1 p3 q2
    rcases p5 with p5 | p5
    · rw [p5.2.1] at hki; cases hki
    · rw [hk] at p5; cases p5.2.2
  · intro A
    simp only [adelta, hnew, Nat.le_refl, if_true, vw, hidx, Option.bind_some, Option.map_some]

/-- DELETE takes the row away. -/
theorem Dur.delete {m : Model} {s : St} {os : Nat → Option Stmt} {recs : List Rec} {R : Tbl} (h : Dur m s os recs R)
    (hw : Wf m s.t s.th) {n v i : Nat} {w : Where} {k : Key} {sh : List Nat} {ex : Bool} {he : List Nat}
    (hn : s.th n = .deleteV v w) (hwk : WhereKey m w k) (hk : kget s.t.idx k = some i) :
    Dur m ⟨{ s.t with idx := kdel s.t.idx k }, upd s.th n (.push ⟨v, .delete, i⟩), sh, ex, he⟩ os recs R := by
  have hq := h.pos n
  rw [hn] at hq
  obtain ⟨q1, q2⟩ := hq
  obtain ⟨r, r1, r2⟩ := hw.twf.rows hk
  have hidx : ∀ x, kget (kdel s.t.idx k) x = if x = k then none else kget s.t.idx x := kget_kdel hw.twf.nodup k
  refine h.change hw (k := k) (st := .delete w) (hw.twf.del k s.t.ver s.t.queue) (.same rfl rfl (Nat.le_refl _) rfl) h.log.rows
    q1 hwk (fun i r hi _ => hi) (fun x hx => by simp only [hidx, if_neg hx]) ?_ (by rw [hn]; simp) ?_ ?_ ⟨r, r1, r2⟩ ?_
    ⟨r, r1, r2, .inl rfl⟩ ?_ (h.dAbove n v w k hn hwk (by rw [hk]; simp))
  · intro x j r' hx hi
    simp only [hidx] at hx
    split at hx
    · cases hx
    · exact h.ahead x j r' hx hi
  · exact ⟨_, r, rfl, r1, by rw [r2]; exact hwk, q2, .inl ⟨rfl, rfl, by simp only [hidx, r2, if_true]⟩⟩
  · exact .inr (.inr ⟨rfl, by simp only [hidx, if_true]⟩)
  · intro x d' hx hp hf
    have hpx := h.pos x
    rw [hp] at hpx
    obtain ⟨st', r', p1, p2, p3, p4, p5⟩ := hpx
    obtain ⟨r3, f1, f2, f3⟩ := hf
    have f1 : s.t.heap[d'.row]? = some r3 := f1
    rw [p2] at f1
    cases f1
    rw [f2] at p3 p5
    have hki := h.kind hx p1 q1 p3 (k := k) hwk
    rcases p5 with p5 | p5
    · rw [hk] at p5; cases p5.2.2
    · rw [p5.2.1] at hki; cases hki
  · intro A
    simp only [adelta, r1, r2, if_true, vw, hidx, Option.bind_none]

/-- UPDATE changes the row. -/
theorem Dur.update {m : Model} {s : St} {os : Nat → Option Stmt} {recs : List Rec} {R : Tbl} (h : Dur m s os recs R)
    (hw : Wf m s.t s.th) {n i : Nat} {st : Stmt} {r : RowObj} {c : Cells} {sh : List Nat} {ex : Bool} {he : List Nat}
    (hn : s.th n = .found i st) (hu : ∃ as w, st = .update as w) (hr : s.t.heap[i]? = some r) (hc : c m.pk = none) (htag : CTags c) :
    Dur m ⟨{ s.t with heap := s.t.heap.set i { r with cells := c, revised := s.t.ver }, ver := s.t.ver + 1 },
      upd s.th n (.push ⟨s.t.ver, .update, i⟩), sh, ex, he⟩ os recs R := by
  have hq := h.pos n
  rw [hn] at hq
  obtain ⟨q1, q2⟩ := hq
  obtain ⟨r0, g1, g2⟩ := found_row hw n i st hn
  rw [hr] at g1
  cases g1
  have hlive := (hw.twf.live hr).1 (q2 hu)
  have hlt := (List.getElem?_eq_some_iff.1 hr).1
  obtain ⟨as, w, rfl⟩ := hu
  have hwk : Touches m (.update as w) r.key := whereKey_iff.1 g2
  have hnew : (s.t.heap.set i { r with cells := c, revised := s.t.ver })[i]? = some { r with cells := c, revised := s.t.ver } := by
    simp [hlt]
  have hold : ∀ j : Nat, i ≠ j → (s.t.heap.set i { r with cells := c, revised := s.t.ver })[j]? = s.t.heap[j]? := by
    intro j hj
    rw [List.getElem?_set, if_neg hj]
  have hfine := h.log.rows r (List.mem_of_getElem? hr)
  refine h.change hw (k := r.key) (st := .update as w)
    (hw.twf.set (r' := { r with cells := c, revised := s.t.ver }) hr rfl (s.t.ver + 1) s.t.queue) ?_ ?_
    q1 hwk ?_ (fun x hx => rfl) ?_ (by rw [hn]; simp) ?_ (.inl rfl) ⟨_, hnew, rfl⟩ ?_
    ⟨_, hnew, rfl, .inr (Nat.le_refl _)⟩ ?_ (h.log.below r.key)
  · refine ⟨rfl, rfl, Nat.le_succ _, ?_⟩
    intro j x hx
    by_cases e : i = j
    · subst e
      rw [hr] at hx
      cases hx
      exact ⟨_, hnew, rfl, Nat.le_of_lt (h.ahead _ _ _ hlive hr)⟩
    · exact ⟨x, by simp only [hold j e]; exact hx, rfl, Nat.le_refl _⟩
  · intro x hx
    rcases List.mem_or_eq_of_mem_set hx with hx | rfl
    · exact h.log.rows x hx
    · exact ⟨hfine.key, hfine.schema, hc, htag⟩
  · intro j x hx hk
    have : i ≠ j := by rintro rfl; rw [hr] at hx; cases hx; exact hk rfl
    simp only [hold j this, hx]
  · intro x j y hx hy
    by_cases e : i = j
    · subst e
      simp only [hnew] at hy
      cases hy
      exact Nat.lt_succ_self _
    · simp only [hold j e] at hy
      exact Nat.lt_succ_of_lt (h.ahead x j y hx hy)
  · exact ⟨_, _, rfl, hnew, hwk, Nat.lt_succ_self _, .inr ⟨by simp, rfl, hlive⟩⟩
  · intro x d' hx hp hf
    have hpx := h.pos x
    rw [hp] at hpx
    obtain ⟨st', r', p1, p2, p3, p4, p5⟩ := hpx
    obtain ⟨r3, f1, f2, f3⟩ := hf
    have f1 : (s.t.heap.set i { r with cells := c, revised := s.t.ver })[d'.row]? = some r3 := f1
    have hkey : r'.key = r.key := by
      by_cases e : i = d'.row
      · rw [← e, hr] at p2; rw [Option.some.inj p2]
      · rw [hold _ e, p2] at f1; rw [Option.some.inj f1]; exact f2
    rw [hkey, hlive] at p5
    rcases p5 with p5 | p5
    · cases p5.2.2
    · have e : i = d'.row := by cases p5.2.2; rfl
      rw [← e, hnew] at f1
      cases f1
      rcases f3 with f3 | f3
      · exact p5.1 f3
      · have f3 : s.t.ver ≤ d'.ver := f3
        omega
  · intro A
    simp only [adelta, hnew, Nat.le_refl, if_true, vw, hlive, Option.bind_some, Option.map_some]

end Verif.Batch.Many
