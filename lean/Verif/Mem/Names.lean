import Verif.Mem.Raw
/-!
Model of the memory of column names: a model owns one allocation per name (`ModelPrivate`,
`core/model/mod.rs:413-463`), and the list of columns, the list of schema changes and every row keep raw
pointers (`RawStr`) to them. C54. Paths are relative to `/repo/server/src/engine`.

Only pointers are modelled, not what is stored under them. Whenever a map with such keys is searched or
changed, all its keys are dereferenced here; the code dereferences those that the hash function leads to.
-/
namespace Verif.Mem.Names

/-- `ModelPrivate` (`core/model/mod.rs:413-416`): the names, their memory and whether they are marked; and
the memory itself. -/
structure Pool where
  alloc : List (String × Nat × Bool) := []
  mem : Nat → Option String := fun _ => none
  next : Nat := 0

/-- The entry of a name. -/
def find (l : List (String × Nat × Bool)) (name : String) : Option (Nat × Bool) :=
  match l with
  | [] => none
  | e :: l => if e.1 = name then some e.2 else find l name

/-- A name is marked or unmarked. -/
def setDead (l : List (String × Nat × Bool)) (name : String) (b : Bool) : List (String × Nat × Bool) :=
  l.map fun e => if e.1 = name then (e.1, e.2.1, b) else e

/-- `push_allocated` (`core/model/mod.rs:451-462`) and `allocate_or_recycle` (`:424-441`): the memory of a
name that is there already is used again. -/
def Pool.push (p : Pool) (name : String) : Nat × Pool :=
  match find p.alloc name with
  | some (q, _) => (q, { p with alloc := setDead p.alloc name false })
  | none => (p.next, { alloc := (name, p.next, false) :: p.alloc,
                       mem := fun q => if q = p.next then some name else p.mem q, next := p.next + 1 })

/-- `mark_pending_remove` (`core/model/mod.rs:442-447`). -/
def Pool.mark (p : Pool) (name : String) : Out (Nat × Pool) :=
  match find p.alloc name with
  | some (q, _) => .ok (q, { p with alloc := setDead p.alloc name true })
  | none => .panic

/-- `vacuum_marked` (`core/model/mod.rs:448-450`): the marked names are freed. -/
def Pool.vacuum (p : Pool) : Pool :=
  { p with alloc := p.alloc.filter fun e => !e.2.2,
           mem := fun q => if p.alloc.any (fun e => e.2.2 && e.2.1 == q) then none else p.mem q }

/-- The text behind a pointer. -/
def Pool.deref (p : Pool) (q : Nat) : Out String :=
  match p.mem q with
  | some s => .ok s
  | none => .ub

/-- The texts behind pointers. -/
def Pool.texts (p : Pool) : List Nat → Out (List String)
  | [] => .ok []
  | q :: qs => do
    let s ← p.deref q
    let ss ← p.texts qs
    .ok (s :: ss)

/-- A row (`core/index/row.rs:46-56`): the pointers under which it stores values, and
`txn_revised_schema_version`. -/
structure Row where
  keys : List Nat
  ver : Nat

/-- What a model keeps pointers in: `p_key`, `fields` and `delta.schema_deltas` (`core/model/mod.rs:81-92`)
and the rows. A schema change is the addition (`true`) or the removal of a column; `schema_current_version`
is the number of changes (`core/model/delta.rs:133-142`). -/
structure Mdl where
  pool : Pool
  pk : Nat
  fields : List Nat
  deltas : List (Bool × Nat) := []
  rows : List Row := []

/-- The pointers to other texts than `name` (`st_delete`, `idx/stdhm.rs`, `idx/stord`). -/
def Pool.without (p : Pool) (qs : List Nat) (name : String) : List Nat := qs.filter fun q => p.mem q != some name

/-- `add_field` (`core/model/mod.rs:483-493`) for a name that ALTER MODEL accepts (`core/model/alt.rs:128`). -/
def Mdl.add (m : Mdl) (name : String) : Out Mdl := do
  let ts ← m.pool.texts m.fields
  if name ∈ ts then .ok m
  else
    let (q, pool) := m.pool.push name
    .ok { m with pool, fields := m.fields ++ [q], deltas := m.deltas ++ [(true, q)] }

/-- `remove_field` (`core/model/mod.rs:474-482`) for a name that ALTER MODEL accepts (`core/model/alt.rs:99-110`). -/
def Mdl.remove (m : Mdl) (name : String) : Out Mdl := do
  let ts ← m.pool.texts m.fields
  let pk ← m.pool.deref m.pk
  if name ∈ ts ∧ name ≠ pk then
    let fields := m.pool.without m.fields name
    let (q, pool) ← m.pool.mark name
    .ok { m with pool, fields, deltas := m.deltas ++ [(false, q)] }
  else .ok m

/-- One turn of the loop that applies schema changes to a row (`core/index/row.rs:158-177`). -/
def applyDelta (p : Pool) (keys : List Nat) (d : Bool × Nat) : Out (List Nat) := do
  let name ← p.deref d.2
  let ts ← p.texts keys
  if d.1 then .ok (if name ∈ ts then keys else keys ++ [d.2]) else .ok (p.without keys name)

/-- The loop. -/
def applyAll (p : Pool) : List Nat → List (Bool × Nat) → Out (List Nat)
  | keys, [] => .ok keys
  | keys, d :: ds => do
    let keys ← applyDelta p keys d
    applyAll p keys ds

/-- `resolve_schema_deltas_and_freeze` (`core/index/row.rs:142-187`); changes since a version are those of
*later* versions (`core/model/delta.rs:115-120`), and the row gets the version of the last one. -/
def Mdl.resolve (m : Mdl) (r : Row) : Out Row :=
  if m.deltas.length ≤ r.ver then .ok r
  else do
    let keys ← applyAll m.pool r.keys (m.deltas.drop (r.ver + 1))
    .ok { keys, ver := if r.ver + 1 < m.deltas.length then m.deltas.length - 1 else r.ver }

/-- The columns other than the primary key (`core/dml/ins.rs:68-135`, `storage/v2/impls/mdl_journal.rs:536-550`). -/
def Mdl.cols (m : Mdl) : Out (List Nat) := do
  let _ ← m.pool.texts m.fields
  let pk ← m.pool.deref m.pk
  .ok (m.pool.without m.fields pk)

/-- A new row (`core/dml/ins.rs:54-57`). -/
def Mdl.insert (m : Mdl) : Out Mdl := do
  let keys ← m.cols
  .ok { m with rows := m.rows ++ [{ keys, ver := m.deltas.length }] }

/-- A row is read or written, by a statement or for a batch: it is brought up to date (`core/dml/sel.rs:201,
251`, `core/dml/upd.rs`, `storage/v2/impls/mdl_journal.rs:273`), and then columns are looked up in it. -/
def Mdl.read (m : Mdl) (i : Nat) : Out Mdl :=
  match m.rows[i]? with
  | none => .ok m
  | some r => do
    let r ← m.resolve r
    let _ ← m.pool.texts r.keys
    let _ ← m.pool.texts m.fields
    .ok { m with rows := m.rows.set i r }

/-- A row of a batch that was written when the model had `v.1` schema changes is restored; it has `v.2`
values, which are paired with the columns (`storage/v2/impls/mdl_journal.rs:536-560`). -/
def Mdl.restoreRow (m : Mdl) (v : Nat × Nat) : Out Mdl := do
  let keys ← m.cols
  let r ← m.resolve { keys := keys.take v.2, ver := v.1 }
  .ok { m with rows := m.rows ++ [r] }

/-- A new model (`core/model/mod.rs:201-227, 229-283`). -/
def create (pk : String) (names : List String) : Mdl :=
  let (q, pool) := Pool.push {} pk
  names.foldl (fun m name =>
    if name ∈ m.fields.filterMap m.pool.mem then m
    else
      let (q, pool) := m.pool.push name
      { m with pool, fields := m.fields ++ [q] }) { pool, pk := q, fields := [q] }

/-- Schema changes. -/
inductive Alter where
  | add (name : String)
  | remove (name : String)

/-- A schema change. -/
def Mdl.alter (m : Mdl) : Alter → Out Mdl
  | .add n => m.add n
  | .remove n => m.remove n

/-- Schema changes one after another. -/
def Mdl.alters : Mdl → List Alter → Out Mdl
  | m, [] => .ok m
  | m, a :: as => do
    let m ← m.alter a
    m.alters as

/-- Rows are restored one after another. -/
def Mdl.restoreRows : Mdl → List (Nat × Nat) → Out Mdl
  | m, [] => .ok m
  | m, v :: vs => do
    let m ← m.restoreRow v
    m.restoreRows vs

/-- The start of the server (`storage/v2/mod.rs:120-138`): the catalogue log is replayed, the rows of all
batches are restored, and the names that are marked are freed. -/
def boot (pk : String) (names : List String) (as : List Alter) (vs : List (Nat × Nat)) : Out Mdl := do
  let m ← (create pk names).alters as
  let m ← m.restoreRows vs
  .ok { m with pool := m.pool.vacuum }

/-- What happens while the server runs. -/
inductive Op where
  | alter (a : Alter)
  | insert
  | read (i : Nat)

/-- The server runs. -/
def Mdl.run : Mdl → List Op → Out Mdl
  | m, [] => .ok m
  | m, op :: ops => do
    let m ← match op with
      | .alter a => m.alter a
      | .insert => m.insert
      | .read i => m.read i
    m.run ops

/-! ### Proof -/

/-- The pool is in order. -/
structure PoolOk (p : Pool) : Prop where
  nodup : (p.alloc.map (·.1)).Nodup
  mem : ∀ q name, p.mem q = some name ↔ ∃ d, (name, q, d) ∈ p.alloc
  fresh : ∀ q, p.next ≤ q → p.mem q = none

/-- The invariant: the pointers to columns point to names that are not marked; the pointers in rows are
valid, and so are those in schema changes that rows have not seen. `base` is the first change of which the
pointer is known to be valid. -/
structure Inv (base : Nat) (m : Mdl) : Prop where
  pool : PoolOk m.pool
  fields : ∀ q ∈ m.fields, ∃ name, (name, q, false) ∈ m.pool.alloc
  pk : m.pk ∈ m.fields
  deltas : ∀ d ∈ m.deltas.drop base, m.pool.mem d.2 ≠ none
  rows : ∀ r ∈ m.rows, (∀ q ∈ r.keys, m.pool.mem q ≠ none) ∧ base ≤ r.ver + 1
  base : base ≤ m.deltas.length

theorem find_mem {l : List (String × Nat × Bool)} {name : String} {x : Nat × Bool} (h : find l name = some x) :
    (name, x) ∈ l := by
  induction l with
  | nil => simp [find] at h
  | cons e l ih =>
    unfold find at h
    split at h
    · rename_i he
      injection h with h
      subst h he
      simp
    · exact List.mem_cons_of_mem _ (ih h)

theorem find_none {l : List (String × Nat × Bool)} {name : String} (h : find l name = none) : ∀ x, (name, x) ∉ l := by
  induction l with
  | nil => simp
  | cons e l ih =>
    unfold find at h
    split at h
    · cases h
    · rename_i he
      intro x hx
      rcases List.mem_cons.1 hx with hx | hx
      · exact he (by rw [← hx])
      · exact ih h x hx

theorem nodup_unique {l : List (String × Nat × Bool)} (h : (l.map (·.1)).Nodup) {n : String} {x y : Nat × Bool}
    (hx : (n, x) ∈ l) (hy : (n, y) ∈ l) : x = y := by
  induction l with
  | nil => simp at hx
  | cons e l ih =>
    rw [List.map_cons, List.nodup_cons] at h
    rcases List.mem_cons.1 hx with hx | hx <;> rcases List.mem_cons.1 hy with hy | hy
    · rw [← hx] at hy; injection hy with _ hy; exact hy.symm
    · exact absurd (List.mem_map.2 ⟨_, hy, by rw [← hx]⟩) h.1
    · exact absurd (List.mem_map.2 ⟨_, hx, by rw [← hy]⟩) h.1
    · exact ih h.2 hx hy

theorem mem_setDead {l : List (String × Nat × Bool)} {name n : String} {b d : Bool} {q : Nat} :
    (n, q, d) ∈ setDead l name b ↔ (n ≠ name ∧ (n, q, d) ∈ l) ∨ (n = name ∧ d = b ∧ ∃ d', (n, q, d') ∈ l) := by
  unfold setDead
  rw [List.mem_map]
  constructor
  · rintro ⟨⟨n', q', d'⟩, he, hx⟩
    dsimp only at hx
    split at hx
    · rename_i hn
      injection hx with h1 h2
      injection h2 with h2 h3
      subst h1 h2 h3
      exact .inr ⟨hn, rfl, d', he⟩
    · rename_i hn
      injection hx with h1 h2
      injection h2 with h2 h3
      subst h1 h2 h3
      exact .inl ⟨hn, he⟩
  · rintro (⟨hn, he⟩ | ⟨hn, hd, d', he⟩)
    · exact ⟨_, he, by simp [hn]⟩
    · exact ⟨_, he, by simp [hn, hd]⟩

theorem setDead_names (l : List (String × Nat × Bool)) (name : String) (b : Bool) :
    (setDead l name b).map (·.1) = l.map (·.1) := by
  unfold setDead
  rw [List.map_map]
  congr 1
  funext e
  simp only [Function.comp]
  split <;> rfl

theorem setDead_ok {p : Pool} (h : PoolOk p) (name : String) (b : Bool) : PoolOk { p with alloc := setDead p.alloc name b } := by
  refine ⟨by rw [setDead_names]; exact h.nodup, fun q n => ?_, h.fresh⟩
  rw [h.mem]
  constructor
  · rintro ⟨d, hd⟩
    by_cases hn : n = name
    · exact ⟨b, mem_setDead.2 (.inr ⟨hn, rfl, d, hd⟩)⟩
    · exact ⟨d, mem_setDead.2 (.inl ⟨hn, hd⟩)⟩
  · rintro ⟨d, hd⟩
    rcases mem_setDead.1 hd with ⟨_, hd⟩ | ⟨_, _, d', hd⟩
    · exact ⟨d, hd⟩
    · exact ⟨d', hd⟩

/-- Two pointers to the same name are the same. -/
theorem same_ptr {p : Pool} (h : PoolOk p) {q q' : Nat} {name : String} (h1 : p.mem q = some name) (h2 : p.mem q' = some name) :
    q = q' := by
  obtain ⟨d, hd⟩ := (h.mem q name).1 h1
  obtain ⟨d', hd'⟩ := (h.mem q' name).1 h2
  have := nodup_unique h.nodup hd hd'
  injection this

theorem push_ok {p : Pool} (h : PoolOk p) (name : String) :
    PoolOk (p.push name).2 ∧ (name, (p.push name).1, false) ∈ (p.push name).2.alloc ∧
      (∀ q, p.mem q ≠ none → (p.push name).2.mem q = p.mem q) ∧
      (∀ n q, (n, q, false) ∈ p.alloc → (n, q, false) ∈ (p.push name).2.alloc) := by
  unfold Pool.push
  split
  · rename_i q d hf
    have hm := find_mem hf
    refine ⟨setDead_ok h name false, mem_setDead.2 (.inr ⟨rfl, rfl, d, hm⟩), fun q _ => rfl, fun n q hq => ?_⟩
    by_cases hn : n = name
    · exact mem_setDead.2 (.inr ⟨hn, rfl, false, hq⟩)
    · exact mem_setDead.2 (.inl ⟨hn, hq⟩)
  · rename_i hf
    have hnone := h.fresh p.next (Nat.le_refl _)
    refine ⟨⟨?_, ?_, ?_⟩, by simp, ?_, fun n q hq => List.mem_cons_of_mem _ hq⟩
    · rw [List.map_cons, List.nodup_cons]
      refine ⟨fun hm => ?_, h.nodup⟩
      obtain ⟨⟨n, x⟩, he, rfl⟩ := List.mem_map.1 hm
      exact find_none hf x he
    · intro q n
      dsimp only
      split
      · rename_i hq
        subst hq
        constructor
        · intro e; injection e with e; subst e; exact ⟨false, by simp⟩
        · rintro ⟨d, hd⟩
          rcases List.mem_cons.1 hd with hd | hd
          · injection hd with hd; rw [hd]
          · have := (h.mem p.next n).2 ⟨d, hd⟩
            rw [hnone] at this
            cases this
      · rename_i hq
        rw [h.mem]
        constructor
        · rintro ⟨d, hd⟩; exact ⟨d, List.mem_cons_of_mem _ hd⟩
        · rintro ⟨d, hd⟩
          rcases List.mem_cons.1 hd with hd | hd
          · injection hd with _ hd; injection hd with hd; exact absurd hd hq
          · exact ⟨d, hd⟩
    · intro q hq
      dsimp only at hq ⊢
      rw [if_neg (by omega)]
      exact h.fresh q (by omega)
    · intro q hq
      dsimp only
      rw [if_neg]
      rintro rfl
      exact hq hnone

theorem texts_ok {p : Pool} {qs : List Nat} (h : ∀ q ∈ qs, p.mem q ≠ none) :
    ∃ ts, p.texts qs = .ok ts ∧ ∀ s, s ∈ ts ↔ ∃ q ∈ qs, p.mem q = some s := by
  induction qs with
  | nil => exact ⟨[], rfl, by simp⟩
  | cons q qs ih =>
    obtain ⟨ts, e, ht⟩ := ih fun q' hq' => h q' (List.mem_cons_of_mem _ hq')
    cases hm : p.mem q with
    | none => exact absurd hm (h q (by simp))
    | some s =>
      refine ⟨s :: ts, by simp [Pool.texts, Pool.deref, hm, e], fun s' => ?_⟩
      simp only [List.mem_cons, ht]
      constructor
      · rintro (rfl | ⟨q', hq', e⟩)
        · exact ⟨q, .inl rfl, hm⟩
        · exact ⟨q', .inr hq', e⟩
      · rintro ⟨q', rfl | hq', e⟩
        · rw [hm] at e; injection e with e; exact .inl e.symm
        · exact .inr ⟨q', hq', e⟩

theorem deref_ok {p : Pool} {q : Nat} (h : p.mem q ≠ none) : ∃ s, p.deref q = .ok s ∧ p.mem q = some s := by
  cases hm : p.mem q with
  | none => exact absurd hm h
  | some s => exact ⟨s, by simp [Pool.deref, hm], rfl⟩

theorem Inv.live {base : Nat} {m : Mdl} (h : Inv base m) : ∀ q ∈ m.fields, m.pool.mem q ≠ none := by
  intro q hq
  obtain ⟨name, hn⟩ := h.fields q hq
  rw [(h.pool.mem q name).2 ⟨_, hn⟩]
  simp

theorem add_inv {base : Nat} {m : Mdl} (h : Inv base m) (name : String) :
    ∃ m', m.add name = .ok m' ∧ Inv base m' ∧ m'.rows = m.rows ∧ (m' = m ∨ ∃ q, m'.fields = m.fields ++ [q] ∧
      m'.deltas = m.deltas ++ [(true, q)]) := by
  obtain ⟨ts, e, _⟩ := texts_ok h.live
  unfold Mdl.add
  rw [e]
  simp only [Out.ok_bind]
  split
  · exact ⟨m, rfl, h, rfl, .inl rfl⟩
  · obtain ⟨h1, h2, h3, h4⟩ := push_ok h.pool name
    have keep : ∀ q, m.pool.mem q ≠ none → (m.pool.push name).2.mem q ≠ none := fun q hq => by rw [h3 q hq]; exact hq
    refine ⟨_, rfl, ⟨h1, ?_, by simp [h.pk], ?_, ?_, by have := h.base; simp; omega⟩, rfl, .inr ⟨_, rfl, rfl⟩⟩
    · intro q hq
      rcases List.mem_append.1 hq with hq | hq
      · obtain ⟨n, hn⟩ := h.fields q hq
        exact ⟨n, h4 n q hn⟩
      · simp only [List.mem_singleton] at hq
        subst hq
        exact ⟨name, h2⟩
    · intro d hd
      dsimp only at hd
      rw [List.drop_append_of_le_length h.base] at hd
      rcases List.mem_append.1 hd with hd | hd
      · exact keep _ (h.deltas d hd)
      · simp only [List.mem_singleton] at hd
        subst hd
        dsimp only
        rw [(h1.mem _ name).2 ⟨_, h2⟩]
        simp
    · intro r hr
      exact ⟨fun q hq => keep q ((h.rows r hr).1 q hq), (h.rows r hr).2⟩

theorem without_mem {p : Pool} {qs : List Nat} {name : String} {q : Nat} :
    q ∈ p.without qs name ↔ q ∈ qs ∧ p.mem q ≠ some name := by
  simp [Pool.without]

theorem remove_inv {base : Nat} {m : Mdl} (h : Inv base m) (name : String) :
    ∃ m', m.remove name = .ok m' ∧ Inv base m' ∧ m'.rows = m.rows ∧ (m' = m ∨ ∃ q, m.pool.mem q = some name ∧
      m'.pool.mem = m.pool.mem ∧ m'.fields = m.pool.without m.fields name ∧ m'.deltas = m.deltas ++ [(false, q)]) := by
  obtain ⟨ts, e, ht⟩ := texts_ok h.live
  obtain ⟨pk, ep, hpk⟩ := deref_ok (h.live _ h.pk)
  unfold Mdl.remove
  rw [e]
  simp only [Out.ok_bind, ep]
  split
  · rename_i hx
    obtain ⟨q0, hq0, hm0⟩ := (ht name).1 hx.1
    unfold Pool.mark
    split
    · rename_i q d hf
      have hm := find_mem hf
      have hq : m.pool.mem q = some name := (h.pool.mem q name).2 ⟨d, hm⟩
      refine ⟨_, rfl, ⟨setDead_ok h.pool name true, ?_, ?_, ?_, h.rows, by have := h.base; simp; omega⟩, rfl,
        .inr ⟨q, hq, rfl, rfl, rfl⟩⟩
      · intro q' hq'
        obtain ⟨hq', hne⟩ := without_mem.1 hq'
        obtain ⟨n, hn⟩ := h.fields q' hq'
        refine ⟨n, mem_setDead.2 (.inl ⟨?_, hn⟩)⟩
        rintro rfl
        exact hne ((h.pool.mem q' n).2 ⟨_, hn⟩)
      · refine without_mem.2 ⟨h.pk, ?_⟩
        rw [hpk]
        intro e
        injection e with e
        exact hx.2 e.symm
      · intro d hd
        dsimp only at hd
        rw [List.drop_append_of_le_length h.base] at hd
        rcases List.mem_append.1 hd with hd | hd
        · exact h.deltas d hd
        · simp only [List.mem_singleton] at hd
          subst hd
          dsimp only
          rw [hq]
          simp
    · rename_i hf
      obtain ⟨d, hd⟩ := (h.pool.mem q0 name).1 hm0
      exact absurd hd (find_none hf _)
  · exact ⟨m, rfl, h, rfl, .inl rfl⟩

theorem applyDelta_ok {p : Pool} {keys : List Nat} (hk : ∀ q ∈ keys, p.mem q ≠ none) {d : Bool × Nat} (hd : p.mem d.2 ≠ none) :
    ∃ keys', applyDelta p keys d = .ok keys' ∧
      (d.1 = true → ∀ q ∈ keys', q ∈ keys ∨ q = d.2) ∧ (d.1 = false → ∀ q ∈ keys', q ∈ keys ∧ q ≠ d.2) := by
  obtain ⟨name, e, hn⟩ := deref_ok hd
  obtain ⟨ts, et, _⟩ := texts_ok hk
  unfold applyDelta
  rw [e]
  simp only [Out.ok_bind, et]
  cases hb : d.1 with
  | true =>
    refine ⟨_, rfl, fun _ q hq => ?_, by simp⟩
    split at hq
    · exact .inl hq
    · rcases List.mem_append.1 hq with hq | hq
      · exact .inl hq
      · exact .inr (by simpa using hq)
  | false =>
    refine ⟨_, rfl, by simp, fun _ q hq => ?_⟩
    obtain ⟨hq, hne⟩ := without_mem.1 hq
    exact ⟨hq, by rintro rfl; exact hne hn⟩

theorem applyAll_ok {p : Pool} (ds : List (Bool × Nat)) {keys : List Nat} (hk : ∀ q ∈ keys, p.mem q ≠ none)
    (hd : ∀ d ∈ ds, p.mem d.2 ≠ none) : ∃ keys', applyAll p keys ds = .ok keys' ∧ ∀ q ∈ keys', p.mem q ≠ none := by
  induction ds generalizing keys with
  | nil => exact ⟨keys, rfl, hk⟩
  | cons d ds ih =>
    obtain ⟨k1, e, h1, h2⟩ := applyDelta_ok hk (hd d (by simp))
    have hk1 : ∀ q ∈ k1, p.mem q ≠ none := by
      intro q hq
      cases hb : d.1 with
      | true =>
        rcases h1 hb q hq with h | rfl
        · exact hk q h
        · exact hd d (by simp)
      | false => exact hk q (h2 hb q hq).1
    obtain ⟨k2, e2, h3⟩ := ih hk1 fun d' hd' => hd d' (List.mem_cons_of_mem _ hd')
    exact ⟨k2, by simp [applyAll, e, e2], h3⟩

theorem resolve_ok {base : Nat} {m : Mdl} (h : Inv base m) {r : Row} (hk : ∀ q ∈ r.keys, m.pool.mem q ≠ none)
    (hv : base ≤ r.ver + 1) : ∃ r', m.resolve r = .ok r' ∧ (∀ q ∈ r'.keys, m.pool.mem q ≠ none) ∧ base ≤ r'.ver + 1 ∧
      m.deltas.length ≤ r'.ver + 1 := by
  unfold Mdl.resolve
  split
  · rename_i hl
    exact ⟨r, rfl, hk, hv, by omega⟩
  · rename_i hl
    have hd : ∀ d ∈ m.deltas.drop (r.ver + 1), m.pool.mem d.2 ≠ none := by
      intro d hd
      have : m.deltas.drop (r.ver + 1) = (m.deltas.drop base).drop (r.ver + 1 - base) := by
        rw [List.drop_drop]; congr 1; omega
      rw [this] at hd
      exact h.deltas d (List.mem_of_mem_drop hd)
    obtain ⟨k, e, hk'⟩ := applyAll_ok _ hk hd
    rw [e]
    refine ⟨_, rfl, hk', ?_, ?_⟩
    · dsimp only
      split <;> omega
    · dsimp only
      split <;> omega

theorem cols_ok {base : Nat} {m : Mdl} (h : Inv base m) : ∃ keys, m.cols = .ok keys ∧ ∀ q ∈ keys, q ∈ m.fields := by
  obtain ⟨ts, e, _⟩ := texts_ok h.live
  obtain ⟨pk, ep, _⟩ := deref_ok (h.live _ h.pk)
  unfold Mdl.cols
  rw [e]
  simp only [Out.ok_bind, ep]
  exact ⟨_, rfl, fun q hq => (without_mem.1 hq).1⟩

theorem alter_inv {base : Nat} {m : Mdl} (h : Inv base m) (a : Alter) : ∃ m', m.alter a = .ok m' ∧ Inv base m' := by
  cases a with
  | add n => obtain ⟨m', e, hi, _⟩ := add_inv h n; exact ⟨m', e, hi⟩
  | remove n => obtain ⟨m', e, hi, _⟩ := remove_inv h n; exact ⟨m', e, hi⟩

theorem run_inv {base : Nat} (ops : List Op) {m : Mdl} (h : Inv base m) : ∃ m', m.run ops = .ok m' := by
  induction ops generalizing m with
  | nil => exact ⟨m, rfl⟩
  | cons op ops ih =>
    cases op with
    | alter a =>
      obtain ⟨m', e, hi⟩ := alter_inv h a
      obtain ⟨m2, e2⟩ := ih hi
      exact ⟨m2, by simp [Mdl.run, e, e2]⟩
    | insert =>
      obtain ⟨keys, e, hk⟩ := cols_ok h
      have hi : Inv base { m with rows := m.rows ++ [{ keys, ver := m.deltas.length }] } := by
        refine ⟨h.pool, h.fields, h.pk, h.deltas, fun r hr => ?_, h.base⟩
        rcases List.mem_append.1 hr with hr | hr
        · exact h.rows r hr
        · simp only [List.mem_singleton] at hr
          subst hr
          exact ⟨fun q hq => h.live q (hk q hq), by have := h.base; dsimp only; omega⟩
      obtain ⟨m2, e2⟩ := ih hi
      exact ⟨m2, by simp [Mdl.run, Mdl.insert, e, e2]⟩
    | read i =>
      cases hr : m.rows[i]? with
      | none =>
        obtain ⟨m2, e2⟩ := ih h
        exact ⟨m2, by simp [Mdl.run, Mdl.read, hr, e2]⟩
      | some r =>
        obtain ⟨h1, h2⟩ := h.rows r (List.mem_of_getElem? hr)
        obtain ⟨r', e, hk, hv, _⟩ := resolve_ok h h1 h2
        obtain ⟨ts, et, _⟩ := texts_ok hk
        obtain ⟨ts2, et2, _⟩ := texts_ok h.live
        have hi : Inv base { m with rows := m.rows.set i r' } := by
          refine ⟨h.pool, h.fields, h.pk, h.deltas, fun r0 hr0 => ?_, h.base⟩
          rcases List.mem_or_eq_of_mem_set hr0 with hr0 | rfl
          · exact h.rows r0 hr0
          · exact ⟨hk, hv⟩
        obtain ⟨m2, e2⟩ := ih hi
        exact ⟨m2, by simp [Mdl.run, Mdl.read, hr, e, et, et2, e2]⟩

/-- Before the names are freed: a column that was added and not removed later is still there. -/
def Settled (m : Mdl) : Prop := ∀ l1 l2 q, m.deltas = l1 ++ (true, q) :: l2 → (false, q) ∉ l2 → q ∈ m.fields

theorem append_last {l l1 l2 : List (Bool × Nat)} {x y : Bool × Nat} (h : l ++ [x] = l1 ++ y :: l2) :
    (l2 = [] ∧ x = y ∧ l = l1) ∨ ∃ l2', l2 = l2' ++ [x] ∧ l = l1 ++ y :: l2' := by
  rcases List.eq_nil_or_concat l2 with rfl | ⟨l2', z, rfl⟩
  · left
    have := List.append_inj' h rfl
    refine ⟨rfl, ?_, this.1⟩
    have := this.2
    injection this
  · right
    rw [List.concat_eq_append] at h ⊢
    rw [← List.cons_append, ← List.append_assoc] at h
    have := List.append_inj' h rfl
    refine ⟨l2', ?_, this.1⟩
    have := this.2
    rw [this]

theorem alters_inv (as : List Alter) {m : Mdl} (h : Inv 0 m) (hs : Settled m) (hr : m.rows = []) :
    ∃ m', m.alters as = .ok m' ∧ Inv 0 m' ∧ Settled m' ∧ m'.rows = [] := by
  induction as generalizing m with
  | nil => exact ⟨m, rfl, h, hs, hr⟩
  | cons a as ih =>
    cases a with
    | add n =>
      obtain ⟨m1, e, h1, hrows, hc⟩ := add_inv h n
      have hs1 : Settled m1 := by
        rcases hc with rfl | ⟨q, hf, hd⟩
        · exact hs
        · intro l1 l2 q0 he hn
          rw [hd] at he
          rw [hf]
          rcases append_last he with ⟨_, hx, _⟩ | ⟨l2', rfl, he'⟩
          · injection hx with _ hx
            simp [hx]
          · exact List.mem_append_left _ (hs l1 l2' q0 he' fun hm => hn (List.mem_append_left _ hm))
      obtain ⟨m2, e2, x⟩ := ih h1 hs1 (by rw [hrows, hr])
      exact ⟨m2, by simp [Mdl.alters, Mdl.alter, e, e2], x⟩
    | remove n =>
      obtain ⟨m1, e, h1, hrows, hc⟩ := remove_inv h n
      have hs1 : Settled m1 := by
        rcases hc with rfl | ⟨q, hq, _, hf, hd⟩
        · exact hs
        · intro l1 l2 q0 he hn
          rw [hd] at he
          rw [hf]
          rcases append_last he with ⟨_, hx, _⟩ | ⟨l2', rfl, he'⟩
          · cases hx
          · refine without_mem.2 ⟨hs l1 l2' q0 he' fun hm => hn (List.mem_append_left _ hm), fun hm => ?_⟩
            have := same_ptr h.pool hm hq
            subst this
            exact hn (by simp)
      obtain ⟨m2, e2, x⟩ := ih h1 hs1 (by rw [hrows, hr])
      exact ⟨m2, by simp [Mdl.alters, Mdl.alter, e, e2], x⟩

theorem applyAll_settled {m : Mdl} (h : Inv 0 m) (hs : Settled m) (ds l0 : List (Bool × Nat)) (hd : m.deltas = l0 ++ ds)
    {keys : List Nat} (hl : ∀ q ∈ keys, m.pool.mem q ≠ none) (hk : ∀ q ∈ keys, q ∈ m.fields ∨ (false, q) ∈ ds) :
    ∃ keys', applyAll m.pool keys ds = .ok keys' ∧ ∀ q ∈ keys', q ∈ m.fields := by
  induction ds generalizing keys l0 with
  | nil => exact ⟨keys, rfl, fun q hq => by simpa using hk q hq⟩
  | cons d ds ih =>
    have hdl : m.pool.mem d.2 ≠ none := h.deltas d (by rw [hd]; simp)
    obtain ⟨k1, e, h1, h2⟩ := applyDelta_ok hl hdl
    have hl1 : ∀ q ∈ k1, m.pool.mem q ≠ none := by
      intro q hq
      cases hb : d.1 with
      | true =>
        rcases h1 hb q hq with h | rfl
        · exact hl q h
        · exact hdl
      | false => exact hl q (h2 hb q hq).1
    have hk1 : ∀ q ∈ k1, q ∈ m.fields ∨ (false, q) ∈ ds := by
      intro q hq
      obtain ⟨b, q0⟩ := d
      cases b with
      | true =>
        rcases h1 rfl q hq with hq | rfl
        · rcases hk q hq with hf | hf
          · exact .inl hf
          · exact .inr (by simpa using hf)
        · by_cases hf : (false, q) ∈ ds
          · exact .inr hf
          · exact .inl (hs l0 ds q hd hf)
      | false =>
        obtain ⟨hq, hne⟩ := h2 rfl q hq
        rcases hk q hq with hf | hf
        · exact .inl hf
        · rcases List.mem_cons.1 hf with hf | hf
          · injection hf with _ hf; exact absurd hf hne
          · exact .inr hf
    obtain ⟨k2, e2, h3⟩ := ih (l0 ++ [d]) (by rw [hd]; simp) hl1 hk1
    exact ⟨k2, by simp [applyAll, e, e2], h3⟩

/-- While rows are restored. -/
structure Restoring (m : Mdl) : Prop where
  inv : Inv 0 m
  settled : Settled m
  rows : ∀ r ∈ m.rows, (∀ q ∈ r.keys, q ∈ m.fields) ∧ m.deltas.length ≤ r.ver + 1

theorem restoreRow_inv {m : Mdl} (h : Restoring m) (v : Nat × Nat) : ∃ m', m.restoreRow v = .ok m' ∧ Restoring m' := by
  obtain ⟨keys0, e, hk0⟩ := cols_ok h.inv
  obtain ⟨v, len⟩ := v
  obtain ⟨keys, hkeys⟩ : ∃ keys, keys0.take len = keys := ⟨_, rfl⟩
  have hk : ∀ q ∈ keys, q ∈ m.fields := fun q hq => hk0 q (List.mem_of_mem_take (hkeys ▸ hq))
  have hr : ∃ r, m.resolve { keys, ver := v } = .ok r ∧ (∀ q ∈ r.keys, q ∈ m.fields) ∧ m.deltas.length ≤ r.ver + 1 := by
    unfold Mdl.resolve
    split
    · rename_i hl
      exact ⟨_, rfl, hk, by dsimp only at hl ⊢; omega⟩
    · obtain ⟨k, e, hk'⟩ := applyAll_settled h.inv h.settled (m.deltas.drop (v + 1)) (m.deltas.take (v + 1))
        (List.take_append_drop _ _).symm (keys := keys) (fun q hq => h.inv.live q (hk q hq)) (fun q hq => .inl (hk q hq))
      dsimp only
      rw [e]
      refine ⟨_, rfl, hk', ?_⟩
      dsimp only
      split <;> omega
  obtain ⟨r, er, hrk, hrv⟩ := hr
  refine ⟨{ m with rows := m.rows ++ [r] }, by simp [Mdl.restoreRow, e, er, hkeys], ⟨?_, h.settled, ?_⟩⟩
  · refine ⟨h.inv.pool, h.inv.fields, h.inv.pk, h.inv.deltas, fun r0 hr0 => ?_, h.inv.base⟩
    rcases List.mem_append.1 hr0 with hr0 | hr0
    · exact h.inv.rows r0 hr0
    · simp only [List.mem_singleton] at hr0
      subst hr0
      exact ⟨fun q hq => h.inv.live q (hrk q hq), by omega⟩
  · intro r0 hr0
    rcases List.mem_append.1 hr0 with hr0 | hr0
    · exact h.rows r0 hr0
    · simp only [List.mem_singleton] at hr0
      subst hr0
      exact ⟨hrk, hrv⟩

theorem restoreRows_inv (vs : List (Nat × Nat)) {m : Mdl} (h : Restoring m) : ∃ m', m.restoreRows vs = .ok m' ∧ Restoring m' := by
  induction vs generalizing m with
  | nil => exact ⟨m, rfl, h⟩
  | cons v vs ih =>
    obtain ⟨m1, e, h1⟩ := restoreRow_inv h v
    obtain ⟨m2, e2, h2⟩ := ih h1
    exact ⟨m2, by simp [Mdl.restoreRows, e, e2], h2⟩

theorem vacuum_inv {m : Mdl} (h : Restoring m) : Inv m.deltas.length { m with pool := m.pool.vacuum } := by
  have hp := h.inv.pool
  have hmem : ∀ q name, m.pool.vacuum.mem q = some name ↔ (name, q, false) ∈ m.pool.alloc := by
    intro q name
    unfold Pool.vacuum
    dsimp only
    split
    · rename_i hd
      rw [List.any_eq_true] at hd
      obtain ⟨⟨n, q', d⟩, he, hx⟩ := hd
      simp only [Bool.and_eq_true, beq_iff_eq] at hx
      obtain ⟨rfl, rfl⟩ := hx
      constructor
      · intro e; cases e
      · intro e
        have h1 := (hp.mem q' name).2 ⟨_, e⟩
        have h2 := (hp.mem q' n).2 ⟨_, he⟩
        rw [h1] at h2
        injection h2 with h2
        subst h2
        have := nodup_unique hp.nodup e he
        injection this with _ this
        cases this
    · rename_i hd
      rw [hp.mem]
      constructor
      · rintro ⟨d, hd'⟩
        cases d with
        | false => exact hd'
        | true => exact absurd (List.any_eq_true.2 ⟨_, hd', by simp⟩) hd
      · intro e; exact ⟨_, e⟩
  have hf : ∀ q ∈ m.fields, m.pool.vacuum.mem q ≠ none := by
    intro q hq
    obtain ⟨n, hn⟩ := h.inv.fields q hq
    rw [(hmem q n).2 hn]
    simp
  refine ⟨⟨?_, ?_, ?_⟩, ?_, h.inv.pk, by simp, ?_, Nat.le_refl _⟩
  · exact List.Nodup.sublist ((List.filter_sublist (l := m.pool.alloc)).map _) hp.nodup
  · intro q name
    dsimp only
    rw [hmem]
    unfold Pool.vacuum
    constructor
    · intro e; exact ⟨false, List.mem_filter.2 ⟨e, rfl⟩⟩
    · rintro ⟨d, hd⟩
      obtain ⟨hd, hx⟩ := List.mem_filter.1 hd
      cases d with
      | false => exact hd
      | true => cases hx
  · intro q hq
    dsimp only [Pool.vacuum] at hq ⊢
    split
    · rfl
    · exact hp.fresh q hq
  · intro q hq
    obtain ⟨n, hn⟩ := h.inv.fields q hq
    exact ⟨n, List.mem_filter.2 ⟨hn, rfl⟩⟩
  · intro r hr
    exact ⟨fun q hq => hf q ((h.rows r hr).1 q hq), (h.rows r hr).2⟩

theorem create_inv (pk : String) (names : List String) :
    Inv 0 (create pk names) ∧ Settled (create pk names) ∧ (create pk names).rows = [] := by
  have h0 : PoolOk {} := ⟨by simp, by simp, by simp⟩
  have gen : ∀ (names : List String) (m : Mdl), Inv 0 m ∧ m.deltas = [] ∧ m.rows = [] →
      let m' := names.foldl (fun m name =>
        if name ∈ m.fields.filterMap m.pool.mem then m
        else
          let (q, pool) := m.pool.push name
          { m with pool, fields := m.fields ++ [q] }) m
      Inv 0 m' ∧ m'.deltas = [] ∧ m'.rows = [] := by
    intro names
    induction names with
    | nil => intro m h; exact h
    | cons n names ih =>
      intro m h
      rw [List.foldl_cons]
      refine ih _ ?_
      split
      · exact h
      · obtain ⟨h, hd, hr⟩ := h
        obtain ⟨h1, h2, h3, h4⟩ := push_ok h.pool n
        refine ⟨⟨h1, ?_, by simp [h.pk], by simp [hd], by simp [hr], by simp [hd]⟩, hd, hr⟩
        intro q hq
        rcases List.mem_append.1 hq with hq | hq
        · obtain ⟨n', hn⟩ := h.fields q hq
          exact ⟨n', h4 n' q hn⟩
        · simp only [List.mem_singleton] at hq
          subst hq
          exact ⟨n, h2⟩
  obtain ⟨h1, h2, h3, h4⟩ := push_ok h0 pk
  have := gen names { pool := (Pool.push {} pk).2, pk := (Pool.push {} pk).1, fields := [(Pool.push {} pk).1] }
    ⟨⟨h1, by simpa using ⟨pk, h2⟩, by simp, by simp, by simp, by simp⟩, rfl, rfl⟩
  obtain ⟨hi, hd, hr⟩ := this
  refine ⟨hi, ?_, hr⟩
  intro l1 l2 q he
  rw [show (create pk names).deltas = [] from hd] at he
  simp at he

/-- **C54.** Whatever columns a model was created with, whatever schema changes are in the log, whatever
versions and however many values the rows in the batches were written with, and whatever statements and schema changes follow: the
server starts, and neither during the start nor afterwards is a column name used after it was freed. -/
theorem C54_names (pk : String) (names : List String) (as : List Alter) (vs : List (Nat × Nat)) (ops : List Op) :
    ∃ m m', boot pk names as vs = .ok m ∧ m.run ops = .ok m' := by
  obtain ⟨hi, hs, hr⟩ := create_inv pk names
  obtain ⟨m1, e1, h1, hs1, hr1⟩ := alters_inv as hi hs hr
  obtain ⟨m2, e2, h2⟩ := restoreRows_inv vs ⟨h1, hs1, by simp [hr1]⟩
  have hv := vacuum_inv h2
  obtain ⟨m3, e3⟩ := run_inv ops hv
  exact ⟨_, m3, by simp [boot, e1, e2], e3⟩

/-- The same before the first restart: a model that was just created. -/
theorem C54_names_new (pk : String) (names : List String) (ops : List Op) : ∃ m', (create pk names).run ops = .ok m' :=
  run_inv ops (create_inv pk names).1

/-! ### Cases -/

/-- A log with a column that is removed, and batches from before and after. -/
def exBoot : Out Mdl := boot "id" ["a", "b"] [.add "c", .remove "a", .add "d", .remove "c"] [(0, 3), (1, 0), (4, 2)]

/-- The second row was written with no values at all; the addition of `d` gives it that column. -/
example : (match exBoot with | .ok m => some (m.fields.map m.pool.mem, m.rows.map fun r => (r.keys.map m.pool.mem, r.ver)) | _ => none) =
    some ([some "id", some "b", some "d"], [([some "b", some "d"], 3), ([some "d"], 3), ([some "b", some "d"], 4)]) := by
  decide +kernel

/-- The list of schema changes keeps pointers to freed names; that they are not used rests on the versions
of the rows. -/
example : (match exBoot with | .ok m => some (m.deltas.map fun d => m.pool.mem d.2) | _ => none) =
    some [none, none, some "d", none] := by decide +kernel

/-- Were a row restored without being brought up to date, then reading it would use a freed name. -/
example : (match exBoot with
    | .ok m => match ({ m with rows := [{ keys := [], ver := 0 }] } : Mdl).read 0 with
      | .ub => true
      | _ => false
    | _ => false) = true := by decide +kernel

/-- And were names freed while the server runs, then the rows that keep a removed column would. -/
example : (match (create "id" ["a"]).run [.insert, .alter (.remove "a")] with
    | .ok m => match ({ m with pool := m.pool.vacuum } : Mdl).read 0 with
      | .ub => true
      | _ => false
    | _ => false) = true := by decide +kernel

end Verif.Mem.Names
