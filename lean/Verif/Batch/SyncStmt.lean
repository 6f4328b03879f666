import Verif.Batch.Sync
/-!
Statements keep a table in step with its file.
-/
namespace Verif.Batch
open Verif.Gns (SDelta Model upd fget ModelOk PkNonNull)
open Verif.Dml (Key Cells RowObj DKind Delta Tbl kget kdel resolve setRow colNames cput kget_append kget_kdel kget_none
  kget_mem kdel_sublist applySchema FloatOps Stmt Asn Where execInsert execDelete execUpdate execSelect execSelectAll
  exec run updLoop allLoop InsData prepareInsert resolveWhere)
open Verif.Journal (SErr)

/-- One more pending change, which determines the row of the key `k`. -/
theorem Sync.push {t u R : Tbl} (h : Sync t R) {d : Delta} {k : Key} (hl : LInv u) (hmod : u.model = t.model)
    (hrow : ∀ (i : Nat) r, t.heap[i]? = some r → ∃ s, u.heap[i]? = some s ∧ r.key = s.key ∧
      (r.key ≠ k → RowEqv t.model r s))
    (hq : u.queue = t.queue ++ [d]) (hd : ∀ A x, adelta u A d x = if x = k then vw u k else A x)
    (hv : ∀ x, x ≠ k → vw u x = vw t x) (hver : t.ver ≤ d.ver) : Sync u R where
  mok := by rw [hmod]; exact h.mok
  model := by rw [hmod]; exact h.model
  live := hl
  rest := h.rest
  rq := h.rq
  low := by
    intro r hr
    obtain ⟨h1, h2⟩ := h.low r hr
    have hdu : d.ver < u.ver := hl.qver d (by rw [hq]; simp)
    refine ⟨by omega, fun x hx => ?_⟩
    rw [hq] at hx
    simp only [List.mem_append, List.mem_singleton] at hx
    rcases hx with hx | rfl
    · exact h2 x hx
    · omega
  rver := by intro hn; rw [hq] at hn; simp at hn
  rpkc := h.rpkc
  rlegal := h.rlegal
  eq := by
    funext x
    rw [hq, List.foldl_append]
    simp only [List.foldl_cons, List.foldl_nil]
    rw [hd]
    by_cases e : x = k
    · subst e; simp
    · rw [if_neg e, hv x e, ← h.eq]
      refine (fold_agree (t := t) (u := u) hmod.symm (fun y => y ≠ k) t.queue (fun _ _ => rfl) ?_ x e).symm
      intro d' hd'
      have hr := List.getElem?_eq_getElem (h.live.qvalid d' hd')
      obtain ⟨s, h1, h2, h3⟩ := hrow _ _ hr
      exact ⟨_, s, hr, h1, h2, h3⟩

/-- Only the version counter moves. -/
theorem Sync.bump {t R : Tbl} (h : Sync t R) {v : Nat} (hv : t.ver ≤ v) : Sync { t with ver := v } R where
  mok := h.mok
  model := h.model
  live := ⟨⟨h.live.r.nodup, h.live.r.valid⟩, h.live.qvalid, h.live.sorted,
    fun d hd => Nat.lt_of_lt_of_le (h.live.qver d hd) hv, fun r hr => Nat.lt_of_lt_of_le (h.live.rver r hr) hv,
    h.live.last, h.live.pkc, h.live.legal⟩
  rest := h.rest
  rq := h.rq
  low := fun r hr => ⟨Nat.lt_of_lt_of_le (h.low r hr).1 hv, (h.low r hr).2⟩
  rver := h.rver
  rpkc := h.rpkc
  rlegal := h.rlegal
  eq := h.eq

theorem sorted_snoc {q : List Delta} {d : Delta} {v : Nat} (h : q.Pairwise fun a b => a.ver < b.ver)
    (hv : ∀ x ∈ q, x.ver < v) (hd : v ≤ d.ver) : (q ++ [d]).Pairwise fun a b => a.ver < b.ver := by
  rw [List.pairwise_append]
  refine ⟨h, by simp, fun a ha b hb => ?_⟩
  simp only [List.mem_singleton] at hb
  subst hb
  exact Nat.lt_of_lt_of_le (hv a ha) hd

/-! ### INSERT -/

theorem Sync.insertRow {t R : Tbl} (h : Sync t R) {k : Key} {c : Cells} (hk : kget t.idx k = none)
    (hc : c t.model.pk = none) (hu : k.uniq = t.model.pkTag.uniq) :
    Sync { t with
      heap := t.heap ++ [⟨k, c, t.model.deltas.length, t.ver⟩]
      idx := t.idx ++ [(k, t.heap.length)]
      ver := t.ver + 1
      queue := t.queue ++ [⟨t.ver, .insert, t.heap.length⟩] } R := by
  have hl := h.live
  have hget : (t.heap ++ [⟨k, c, t.model.deltas.length, t.ver⟩])[t.heap.length]?
      = some (⟨k, c, t.model.deltas.length, t.ver⟩ : RowObj) := by simp
  refine h.push (k := k) ⟨⟨?_, ?_⟩, ?_, ?_, ?_, ?_, ?_, ?_, ?_⟩ rfl ?_ rfl ?_ ?_ (Nat.le_refl _)
  · simp only [List.map_append, List.map_cons, List.map_nil]
    rw [List.nodup_append]
    refine ⟨hl.r.nodup, by simp, ?_⟩
    intro a ha b hb
    simp only [List.mem_singleton] at hb
    subst hb
    rintro rfl
    exact kget_none.1 hk ha
  · intro e he
    simp only [List.mem_append, List.mem_singleton] at he
    rcases he with he | rfl
    · obtain ⟨r, h1, h2⟩ := hl.r.valid e he
      refine ⟨r, ?_, h2⟩
      simp only
      rw [List.getElem?_append_left (List.getElem?_eq_some_iff.1 h1).1, h1]
    · exact ⟨_, hget, rfl⟩
  · intro d hd
    simp only [List.mem_append, List.mem_singleton] at hd
    simp only [List.length_append, List.length_cons, List.length_nil]
    rcases hd with hd | rfl
    · have := hl.qvalid d hd; omega
    · simp
  · exact sorted_snoc hl.sorted hl.qver (Nat.le_refl _)
  · intro d hd
    simp only [List.mem_append, List.mem_singleton] at hd
    simp only
    rcases hd with hd | rfl
    · have := hl.qver d hd; omega
    · simp
  · intro r hr
    simp only [List.mem_append, List.mem_singleton] at hr
    simp only
    rcases hr with hr | rfl
    · have := hl.rver r hr; omega
    · simp
  · intro d hd r hr
    simp only [List.getLast?_append, List.getLast?_singleton, Option.some_or, Option.some.injEq] at hd
    subst hd
    simp only [List.mem_append, List.mem_singleton] at hr
    rcases hr with hr | rfl
    · exact Nat.le_of_lt (hl.rver r hr)
    · exact Nat.le_refl _
  · intro r hr
    simp only [List.mem_append, List.mem_singleton] at hr
    rcases hr with hr | rfl
    · exact hl.pkc r hr
    · exact hc
  · intro r hr
    simp only [List.mem_append, List.mem_singleton] at hr
    rcases hr with hr | rfl
    · exact hl.legal r hr
    · exact hu
  · intro i r hr
    refine ⟨r, ?_, rfl, fun _ => ⟨rfl, rfl, rfl⟩⟩
    simp only
    rw [List.getElem?_append_left (List.getElem?_eq_some_iff.1 hr).1, hr]
  · intro A x
    simp only [adelta, hget, Nat.le_refl, if_true]
    split
    · simp [vw, kget_append, hk, kget]
    · rfl
  · intro x hx
    simp only [vw, kget_append]
    cases hi : kget t.idx x with
    | none =>
      have : ¬ k = x := fun h => hx h.symm
      simp [kget, this]
    | some i =>
      obtain ⟨r, h1, _⟩ := hl.r.valid _ (kget_mem hi)
      simp only [Option.bind_some]
      rw [List.getElem?_append_left (List.getElem?_eq_some_iff.1 h1).1]

/-- The key and the cells of an INSERT. -/
theorem prepareInsert_facts {m : Model} (hm : ModelOk m) (hpk : PkNonNull m) {d : InsData} (hd : d.Wf) {k : Key}
    {c : Cells} (h : prepareInsert m d = .ok (k, c)) : k.uniq = m.pkTag.uniq ∧ c m.pk = none := by
  by_cases hi : Dml.InsertOk m.fields d
  · obtain ⟨v, c', _, h2, h3, _, h5⟩ := Dml.prepareInsert_ok hm hpk hd hi
    rw [h2] at h
    cases h
    exact ⟨h3, (h5 m.pk).2 (.inr rfl)⟩
  · rw [Dml.prepareInsert_bad hm hd hi] at h
    cases h

theorem Sync.insert {t R : Tbl} (h : Sync t R) (hm : ModelOk t.model) (hpk : PkNonNull t.model) {d : InsData}
    (hd : d.Wf) : Sync (execInsert t d).1 R := by
  rw [execInsert]
  cases hp : prepareInsert t.model d with
  | ok kc =>
    obtain ⟨k, c⟩ := kc
    obtain ⟨h1, h2⟩ := prepareInsert_facts hm hpk hd hp
    simp only
    cases hk : kget t.idx k with
    | some _ => exact h.bump (Nat.le_succ _)
    | none => exact h.insertRow hk h2 h1
  | err e => exact h
  | panic => exact h
  | hang => exact h

/-! ### DELETE -/

theorem Sync.deleteRow {t R : Tbl} (h : Sync t R) {k : Key} {i : Nat} (hk : kget t.idx k = some i) :
    Sync { t with
      ver := t.ver + 1
      idx := kdel t.idx k
      queue := t.queue ++ [⟨t.ver, .delete, i⟩] } R := by
  have hl := h.live
  obtain ⟨r, hr, hkey⟩ := hl.r.valid _ (kget_mem hk)
  simp only at hr hkey
  refine h.push (k := k) ⟨⟨?_, ?_⟩, ?_, ?_, ?_, ?_, ?_, ?_, ?_⟩ rfl ?_ rfl ?_ ?_ (Nat.le_refl _)
  · exact hl.r.nodup.sublist ((kdel_sublist _ _).map _)
  · exact fun e he => hl.r.valid e ((kdel_sublist _ _).subset he)
  · intro d hd
    simp only [List.mem_append, List.mem_singleton] at hd
    rcases hd with hd | rfl
    · exact hl.qvalid d hd
    · exact (List.getElem?_eq_some_iff.1 hr).1
  · exact sorted_snoc hl.sorted hl.qver (Nat.le_refl _)
  · intro d hd
    simp only [List.mem_append, List.mem_singleton] at hd
    simp only
    rcases hd with hd | rfl
    · have := hl.qver d hd; omega
    · simp
  · intro r hr
    have := hl.rver r hr
    simp only
    omega
  · intro d hd r hr
    simp only [List.getLast?_append, List.getLast?_singleton, Option.some_or, Option.some.injEq] at hd
    subst hd
    exact Nat.le_of_lt (hl.rver r hr)
  · exact hl.pkc
  · exact hl.legal
  · exact fun i r hr => ⟨r, hr, rfl, fun _ => ⟨rfl, rfl, rfl⟩⟩
  · intro A x
    have : vw { t with ver := t.ver + 1, idx := kdel t.idx k, queue := t.queue ++ [⟨t.ver, .delete, i⟩] } k = none := by
      simp [vw, kget_kdel hl.r.nodup]
    rw [this]
    simp only [adelta, hr, hkey]
  · intro x hx
    simp only [vw, kget_kdel hl.r.nodup, if_neg hx]

theorem Sync.delete {t R : Tbl} (h : Sync t R) (w : Where) : Sync (execDelete t w).1 R := by
  rw [execDelete]
  simp only
  cases resolveWhere t.model w with
  | none => exact h.bump (Nat.le_succ _)
  | some k =>
    simp only
    cases hk : kget t.idx k with
    | none => exact h.bump (Nat.le_succ _)
    | some i => exact h.deleteRow hk

/-! ### UPDATE -/

/-- An UPDATE gives no value to a column that has none. -/
theorem updLoop_none {F : FloatOps} {fs : Enc.Fields} {pk : String} : ∀ {as : List Asn} {c c' : Cells}
    {rb : List (String × Cell)}, updLoop F fs as c rb = .done c' → c pk = none → c' pk = none
  | [], c, c', rb, h, hc => by rw [updLoop] at h; cases h; exact hc
  | a :: as, c, c', rb, h, hc => by
    rw [updLoop] at h
    cases hf : fget fs a.lhs with
    | none => simp [hf] at h
    | some f =>
      cases hx : c a.lhs with
      | none => simp [hf, hx] at h
      | some x =>
        have hne : ¬ pk = a.lhs := by rintro rfl; rw [hc] at hx; cases hx
        have hupd : ∀ v, upd c a.lhs v pk = none := by intro v; simp [upd, hne, hc]
        simp only [hf, hx] at h
        cases hs : Dml.asnStep F f x a.op a.rhs with
        | replace new => rw [hs] at h; exact updLoop_none h (hupd _)
        | push new => rw [hs] at h; exact updLoop_none h (hupd _)
        | fail => rw [hs] at h; cases h
        | panic => rw [hs] at h; cases h

theorem Sync.updateRow {t R : Tbl} (h : Sync t R) {k : Key} {i : Nat} {r : RowObj} {c : Cells}
    (hk : kget t.idx k = some i) (hr : t.heap[i]? = some r) (hc : c t.model.pk = none) :
    Sync { t with
      heap := t.heap.set i { r with cells := c, revised := t.ver }
      ver := t.ver + 1
      queue := t.queue ++ [⟨t.ver, .update, i⟩] } R := by
  have hl := h.live
  obtain ⟨r', hr', hkey⟩ := hl.r.valid _ (kget_mem hk)
  simp only at hr' hkey
  rw [hr] at hr'
  cases hr'
  have hlt := (List.getElem?_eq_some_iff.1 hr).1
  have hmem : ∀ s ∈ t.heap.set i { r with cells := c, revised := t.ver },
      s ∈ t.heap ∨ s = { r with cells := c, revised := t.ver } := fun s hs => List.mem_or_eq_of_mem_set hs
  have hget : (t.heap.set i { r with cells := c, revised := t.ver })[i]? = some { r with cells := c, revised := t.ver } := by
    simp [hlt]
  have hget' : ∀ (j : Nat), i ≠ j → (t.heap.set i { r with cells := c, revised := t.ver })[j]? = t.heap[j]? := by
    intro j hj; simp [List.getElem?_set, hj]
  refine h.push (k := k) ⟨⟨hl.r.nodup, ?_⟩, ?_, ?_, ?_, ?_, ?_, ?_, ?_⟩ rfl ?_ rfl ?_ ?_ (Nat.le_refl _)
  · intro e he
    obtain ⟨s, h1, h2⟩ := hl.r.valid e he
    by_cases ei : i = e.2
    · subst ei
      rw [hr] at h1
      cases h1
      exact ⟨_, hget, h2⟩
    · exact ⟨s, by simp only; rw [hget' _ ei]; exact h1, h2⟩
  · intro d hd
    simp only [List.mem_append, List.mem_singleton] at hd
    simp only [List.length_set]
    rcases hd with hd | rfl
    · exact hl.qvalid d hd
    · exact hlt
  · exact sorted_snoc hl.sorted hl.qver (Nat.le_refl _)
  · intro d hd
    simp only [List.mem_append, List.mem_singleton] at hd
    simp only
    rcases hd with hd | rfl
    · have := hl.qver d hd; omega
    · simp
  · intro s hs
    simp only
    rcases hmem s hs with hs | rfl
    · have := hl.rver s hs; omega
    · simp
  · intro d hd s hs
    simp only [List.getLast?_append, List.getLast?_singleton, Option.some_or, Option.some.injEq] at hd
    subst hd
    rcases hmem s hs with hs | rfl
    · exact Nat.le_of_lt (hl.rver s hs)
    · exact Nat.le_refl _
  · intro s hs
    rcases hmem s hs with hs | rfl
    · exact hl.pkc s hs
    · exact hc
  · intro s hs
    rcases hmem s hs with hs | rfl
    · exact hl.legal s hs
    · exact hl.legal r (List.mem_of_getElem? hr)
  · intro j s hs
    by_cases ei : i = j
    · subst ei
      rw [hr] at hs
      cases hs
      exact ⟨_, hget, rfl, fun hn => absurd hkey hn⟩
    · exact ⟨s, by simp only; rw [hget' _ ei]; exact hs, rfl, fun _ => ⟨rfl, rfl, rfl⟩⟩
  · intro A x
    have : vw (Tbl.mk t.model (t.heap.set i { r with cells := c, revised := t.ver }) t.idx (t.ver + 1)
          (t.queue ++ [⟨t.ver, .update, i⟩])) k
        = some (rowList t.model { r with cells := c, revised := t.ver }, t.ver) := by
      simp only [vw, hk, Option.bind_some, hget, Option.map_some]
    rw [this]
    rw [adelta]
    simp only [hget, Nat.le_refl, if_true]
    rw [hkey]
  · intro x hx
    simp only [vw]
    cases hi : kget t.idx x with
    | none => rfl
    | some j =>
      have hij : i ≠ j := by
        rintro rfl
        obtain ⟨s, h1, h2⟩ := hl.r.valid _ (kget_mem hi)
        simp only at h1 h2
        rw [hr] at h1
        cases h1
        exact hx (h2.symm.trans hkey)
      simp only [Option.bind_some]
      rw [hget' _ hij]

/-- What is asked of a statement: the values of an INSERT have the form that the parser gives them, and an
UPDATE that fails leaves the rows alone (which C32 and its exceptions are about). -/
def Clean (F : FloatOps) (t : Tbl) : Stmt → Prop
  | .insert d => d.Wf
  | .update as w => (execUpdate F t as w).2 = .empty ∨ (execUpdate F t as w).1.heap = t.heap
  | _ => True

theorem Sync.update {F : FloatOps} {t R : Tbl} (h : Sync t R) {as : List Asn} {w : Where}
    (hc : Clean F t (.update as w)) : Sync (execUpdate F t as w).1 R := by
  have hl := h.live
  rw [Clean] at hc
  rw [execUpdate] at hc ⊢
  cases hw : resolveWhere t.model w with
  | none => exact h
  | some k =>
    simp only [hw] at hc ⊢
    cases hk : kget t.idx k with
    | none => exact h
    | some i =>
      obtain ⟨r, hr, hkey⟩ := hl.r.valid _ (kget_mem hk)
      simp only at hr hkey
      simp only [hk, hr, Option.bind_some, Option.map_some] at hc ⊢
      cases hu : updLoop F t.model.fields as r.cells [] with
      | done c =>
        simp only
        exact h.updateRow hk hr (updLoop_none hu (hl.pkc r (List.mem_of_getElem? hr)))
      | fail e c rb =>
        simp only [hu] at hc ⊢
        rcases hc with hc | hc
        · cases hc
        · have : setRow { t with ver := t.ver + 1 } i { r with cells := Dml.restore c rb } = { t with ver := t.ver + 1 } := by
            simp only [setRow] at hc ⊢
            rw [hc]
          rw [this]
          exact h.bump (Nat.le_succ _)
      | panic c =>
        simp only [hu] at hc ⊢
        rcases hc with hc | hc
        · cases hc
        · have : setRow { t with ver := t.ver + 1 } i { r with cells := c } = { t with ver := t.ver + 1 } := by
            simp only [setRow] at hc ⊢
            rw [hc]
          rw [this]
          exact h.bump (Nat.le_succ _)

/-! ### SELECT -/

theorem execSelect_lazy {t : Tbl} (fields : Option (List String)) (w : Where) : Lazy t (execSelect t fields w).1 := by
  rw [execSelect]
  cases resolveWhere t.model w with
  | none => exact .refl t
  | some k =>
    simp only
    cases hk : kget t.idx k with
    | none => exact .refl t
    | some i =>
      simp only [Option.bind_some]
      cases hr : t.heap[i]? with
      | none => exact .refl t
      | some r => exact Lazy.setRow hr

theorem allLoop_lazy {ks : List String} : ∀ (es : List (Key × Nat)) (t : Tbl), Lazy t (allLoop ks es t).1
  | [], t => .refl t
  | (k, i) :: es, t => by
    rw [allLoop]
    cases hr : t.heap[i]? with
    | none => exact .refl t
    | some r =>
      simp only
      have h1 := Lazy.setRow hr
      cases Dml.readAll (setRow t i (resolve t.model.deltas r)).model.pk
        (Dml.keyCellAll (setRow t i (resolve t.model.deltas r)).model.pkTag k) (resolve t.model.deltas r).cells ks with
      | none => exact h1
      | some cs =>
        simp only
        have h2 := allLoop_lazy (ks := ks) es (setRow t i (resolve t.model.deltas r))
        generalize allLoop ks es (setRow t i (resolve t.model.deltas r)) = x at h2
        obtain ⟨u, o⟩ := x
        cases o <;> exact h1.trans h2

theorem execSelectAll_lazy {t : Tbl} (it : List (Key × Nat)) (fields : Option (List String)) (n : Nat) :
    Lazy t (execSelectAll t it fields n).1 := by
  rw [execSelectAll]
  split
  · exact .refl t
  · have h2 := allLoop_lazy (ks := fields.getD (colNames t.model.fields)) (it.take n) t
    generalize allLoop (fields.getD (colNames t.model.fields)) (it.take n) t = x at h2 ⊢
    obtain ⟨u, o⟩ := x
    cases o <;> exact h2

/-! ### All -/

theorem Sync.exec {F : FloatOps} {order : List (Key × Nat) → List (Key × Nat)} {t R : Tbl} (h : Sync t R)
    (hm : ModelOk t.model) (hpk : PkNonNull t.model) {s : Stmt} (hc : Clean F t s) :
    Sync (exec F order t s).1 R := by
  cases s with
  | insert d => exact h.insert hm hpk hc
  | update as w => exact h.update hc
  | delete w => exact h.delete w
  | select fs w => exact h.lazy (execSelect_lazy fs w)
  | selectAll fs n => exact h.lazy (execSelectAll_lazy _ fs n)

end Verif.Batch
