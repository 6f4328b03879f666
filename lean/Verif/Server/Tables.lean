import Verif.Server.Lift
/-!
C50: what clients see of a table, from the texts of their queries to the answers, is what a map from keys to rows would show,
whatever else happens on the server.
-/
namespace Verif.Server
open Verif.Lex (Token lex ascii)
open Verif.Gns (Cat Client World Model ModelOk PkNonNull)
open Verif.Ql (Query)
open Verif.Dml (FloatOps ATable Reply SpecStep SpecRun Inv abs Fine StmtOk Tbl)

/-! ### Specification -/

/-- What a parsed statement asks for. A clause asks for equality exactly if its operator is the one with the code 1, which is
`=` (C47); `SELECT ALL` asks for as many rows as its limit says. -/
def asks : Ql.RowStmt → Dml.Stmt
  | .insert d => .insert d
  | .update as w => .update as (w.map fun (col, rel) => (col, ⟨decide (rel.opc = 1), rel.rhs⟩))
  | .delete w => .delete (w.map fun (col, rel) => (col, ⟨decide (rel.opc = 1), rel.rhs⟩))
  | .select fs w => .select fs (w.map fun (col, rel) => (col, ⟨decide (rel.opc = 1), rel.rhs⟩))
  | .selectAll fs n => .selectAll fs n.toNat

/-- The statement on the table `sp.m` that a query is, if it is one. -/
def stmtOn (sp m : String) (q : Q) : Option Dml.Stmt :=
  match read q.1 q.2.1 q.2.2.1 q.2.2.2 with
  | some (.rows r) => if r.space = sp ∧ r.model = m then some (asks r.stmt) else none
  | _ => none

/-- The answers to the queries on the table. -/
def answersOn (sp m : String) : Srv → List Q → List Answer
  | _, [] => []
  | s, q :: qs =>
    match serve q.1 s q.2.1 q.2.2.1 q.2.2.2 with
    | (s', _, a, _) => (if (stmtOn sp m q).isSome then [a] else []) ++ answersOn sp m s' qs

/-- The query is on the table, or it names neither the declaration nor the rows: not `ALTER MODEL`, `DROP MODEL` and `CREATE
MODEL` of this model, and not a forced `DROP SPACE` of its space. -/
def Spares (sp m : String) (q : Q) : Prop :=
  ∀ a, read q.1 q.2.1 q.2.2.1 q.2.2.2 = some a →
    (stmtOn sp m q).isSome = true ∨ (¬ Names a (.decl sp m) ∧ ¬ Names a (.rows sp m))

/-- The UPDATEs are as in C32; nothing is asked of the other statements. -/
def UpdatesFine (F : FloatOps) (md : Model) : List Dml.Stmt → ATable → Prop
  | [], _ => True
  | s :: ss, A => (∀ as w, s = .update as w → StmtOk F md A s) ∧ ∀ B r, SpecStep F md A s B r → UpdatesFine F md ss B

/-! ### Proof -/

theorem asks_rowStmt (r : Ql.RowStmt) : asks r = rowStmt r := by
  have h : ∀ w : List (String × Ql.Rel),
      w.map (fun (col, rel) => (col, (⟨decide (rel.opc = 1), rel.rhs⟩ : Dml.Clause))) = w.map clause := by
    intro w
    refine List.map_congr_left fun c _ => ?_
    rfl
  cases r <;> simp only [asks, rowStmt, h]

theorem stmtOn_wf {sp m : String} {q : Q} {d : Dml.InsData} (h : stmtOn sp m q = some (.insert d)) : d.Wf := by
  unfold stmtOn at h
  split at h
  · rename_i r hr
    split at h
    · have := read_ok hr
      obtain ⟨a, b, st⟩ := r
      cases st <;> simp only [asks, Option.some.injEq, Dml.Stmt.insert.injEq, reduceCtorEq] at h
      subst h
      exact this
    · cases h
  · cases h

theorem stmtOn_serve {sp m : String} {o : Outside} {x : Sess} {text params : Bytes} {st : Dml.Stmt}
    (h : stmtOn sp m (o, x, text, params) = some st) {s : Srv} {t : Tbl} (ht : s.tbl sp m = some t) :
    serve o s x text params = (s.setRows sp m (Dml.exec o.floats o.order t st).1, x, .rows (Dml.exec o.floats o.order t st).2, none) := by
  unfold stmtOn at h
  split at h
  · rename_i r hr
    split at h
    · rename_i he
      obtain ⟨rfl, rfl⟩ := he
      cases h
      rw [serve_read.1 _ hr, asks_rowStmt]
      simp only [execute, ht]
    · cases h
  · cases h

theorem tbl_setRows {s : Srv} {sp m : String} {t t' : Tbl} (ht : s.tbl sp m = some t) (hm : t'.model = t.model) :
    (s.setRows sp m t').tbl sp m = some t' := by
  unfold Srv.tbl at ht ⊢
  simp only [Srv.setRows]
  cases h : s.cat.models sp m with
  | none => simp [h] at ht
  | some md =>
    simp only [h, Option.map_some, Option.some.injEq] at ht
    subst ht
    simp only at hm
    obtain ⟨a, b, c, d, e⟩ := t'
    simp only at hm
    subst hm
    simp

theorem tables_run {F : FloatOps} {sp m : String} {md : Model} (hm : ModelOk md) (hpk : PkNonNull md) :
    ∀ {qs : List Q} {s : Srv} {t : Tbl}, Neat s → s.tbl sp m = some t → Inv md t →
    (∀ q ∈ qs, Spares sp m q ∧ q.1.floats = F ∧ ∀ l, (q.1.order l).Perm l) →
    UpdatesFine F md (qs.filterMap (stmtOn sp m)) (abs t) →
    ∃ (rs : List Reply) (t' : Tbl), answersOn sp m s qs = rs.map .rows ∧ (serveAll s qs).tbl sp m = some t' ∧ Inv md t' ∧
      SpecRun F md (abs t) (qs.filterMap (stmtOn sp m)) (abs t') (rs.map Reply.norm)
  | [], s, t, _, ht, hi, _, _ => ⟨[], t, rfl, ht, hi, .nil⟩
  | q :: qs, s, t, hn, ht, hi, hq, hf => by
    obtain ⟨o, x, text, params⟩ := q
    obtain ⟨h1, h2, h3⟩ := hq (o, x, text, params) (by simp)
    simp only at h2 h3
    have hq' : ∀ q ∈ qs, Spares sp m q ∧ q.1.floats = F ∧ ∀ l, (q.1.order l).Perm l := fun q h => hq q (by simp [h])
    have hn' : Neat (serve o s x text params).1 := serve_neat hn x text params
    cases hs : stmtOn sp m (o, x, text, params) with
    | some st =>
      simp only [List.filterMap_cons, hs] at hf ⊢
      have he := stmtOn_serve hs ht
      have hok : StmtOk F md (abs t) st := by
        cases st with
        | insert d => exact stmtOn_wf hs
        | update as w => exact hf.1 as w rfl
        | _ => trivial
      rw [← h2] at hok
      obtain ⟨i1, i2⟩ := Dml.exec_spec hm hpk h3 hi hok
      rw [h2] at i1 i2
      have ht' : (serve o s x text params).1.tbl sp m = some (Dml.exec F o.order t st).1 := by
        rw [he, ← h2]
        exact tbl_setRows ht (by rw [h2, i1.model, hi.model])
      obtain ⟨rs, t', a1, a2, a3, a4⟩ := tables_run hm hpk hn' ht' i1 hq' (hf.2 _ _ i2)
      refine ⟨(Dml.exec F o.order t st).2 :: rs, t', ?_, a2, a3, .cons i2 a4⟩
      simp only [answersOn, hs, Option.isSome_some, if_true, a1, List.map_cons, List.singleton_append, List.cons.injEq, and_true]
      rw [he, h2]
    | none =>
      simp only [List.filterMap_cons, hs] at hf ⊢
      have ht' : (serve o s x text params).1.tbl sp m = some t := by
        cases hr : read o x text params with
        | none => rw [(serve_read.2 hr).1]; exact ht
        | some a =>
          rcases h1 a hr with h | ⟨g1, g2⟩
          · rw [hs] at h; cases h
          · have f1 := execute_frame (o := o) hn (x := x) g1
            have f2 := execute_frame (o := o) hn (x := x) g2
            rw [serve_read.1 a hr]
            simp only [Same] at f1 f2
            unfold Srv.tbl at ht ⊢
            rw [f1, f2]
            exact ht
      obtain ⟨rs, t', a1, a2, a3, a4⟩ := tables_run hm hpk hn' ht' hi hq' hf
      refine ⟨rs, t', ?_, a2, a3, a4⟩
      simp only [answersOn, hs, Option.isSome_none, a1]
      simp

/-! ### Theorems -/

/-- The server of a new installation. -/
def newServer (hash : Bytes) : Srv :=
  ⟨{ Cat.empty with users := Gns.upd Cat.empty.users Gns.ROOT (some hash) }, fun _ _ => Rows.none⟩

theorem serveAll_append : ∀ (a b : List Q) (s : Srv), serveAll s (a ++ b) = serveAll (serveAll s a) b
  | [], _, _ => rfl
  | (o, x, t, p) :: a, b, s => by
    simp only [List.cons_append, serveAll]
    exact serveAll_append a b _

theorem serveLog_state : ∀ (qs : List Q) (s : Srv), (serveLog s qs).1 = serveAll s qs
  | [], _ => rfl
  | (o, x, t, p) :: qs, s => by
    simp only [serveLog, serveAll]
    exact serveLog_state qs _

theorem serveAll_neat : ∀ {qs : List Q} {s : Srv}, Neat s → Neat (serveAll s qs)
  | [], _, h => h
  | (_, x, t, p) :: qs, _, h => serveAll_neat (qs := qs) (serve_neat h x t p)

theorem new_consistent (hash : Bytes) (qs : List Q) (hu : ∀ q ∈ qs, Usual q) :
    Gns.Consistent (serveAll (newServer hash) qs).cat := by
  have h := C35_query_texts_partial (rs := [⟨.init hash, fun _ _ => Rows.none, qs⟩])
    (c := (serveAll (newServer hash) qs).cat) (ess := [.createUser Gns.ROOT hash :: (serveLog (newServer hash) qs).2])
    (by intro r hr q hq; cases List.mem_singleton.1 hr; exact hu q hq)
  refine h ?_
  simp only [runs, Run.go, Start.ops]
  rw [← serveLog_state]
  rfl

/-- **C50 (partial).** Take any history of queries: texts and parameters sent by any sessions of any users. Let there be a model
`sp.m` without rows, with a primary key that is not nullable. Take any further queries that do not alter or drop this model
and do not drop its space by force. Then the answers to the queries on the model, up to the widths of numbers, and the rows in
the end are those of a map from keys to rows, whatever the other queries do. Missing, as in C31 and C33: the UPDATEs that the
code gets wrong, nullable primary keys, and changes of the columns. -/
theorem C50_tables_partial {F : FloatOps} (hash : Bytes) {before after : List Q} {sp m : String} {md : Model}
    (hu : ∀ q ∈ before, Usual q)
    (hm : (serveAll (newServer hash) before).cat.models sp m = some md) (hpk : PkNonNull md)
    (hr : (serveAll (newServer hash) before).rows sp m = Rows.none)
    (hq : ∀ q ∈ after, Spares sp m q ∧ q.1.floats = F ∧ ∀ l, (q.1.order l).Perm l)
    (hf : UpdatesFine F md (after.filterMap (stmtOn sp m)) (fun _ => none)) :
    ∃ (rs : List Reply) (t : Tbl), answersOn sp m (serveAll (newServer hash) before) after = rs.map .rows ∧
      (serveAll (newServer hash) (before ++ after)).tbl sp m = some t ∧
      SpecRun F md (fun _ => none) (after.filterMap (stmtOn sp m)) (abs t) (rs.map Reply.norm) := by
  have hok : ModelOk md := (new_consistent hash before hu).models _ _ _ hm
  have hn : Neat (serveAll (newServer hash) before) := serveAll_neat fun _ _ _ => rfl
  have ht : (serveAll (newServer hash) before).tbl sp m = some (Tbl.empty md) := by
    unfold Srv.tbl
    rw [hm, hr]
    rfl
  obtain ⟨rs, t, h1, h2, _, h4⟩ := tables_run hok hpk hn ht ⟨rfl, List.nodup_nil, by simp [Tbl.empty]⟩ hq hf
  exact ⟨rs, t, h1, by rw [serveAll_append]; exact h2, h4⟩

theorem updatesFine_simple {F : FloatOps} {md : Model} (hm : ModelOk md) : ∀ {ss : List Dml.Stmt} {A : ATable},
    (∀ as w, .update as w ∈ ss → Dml.SimpleUpd md as) → UpdatesFine F md ss A
  | [], _, _ => trivial
  | s :: ss, A, h => by
    refine ⟨fun as w he => ?_, fun B r _ => updatesFine_simple hm (fun as w hs => h as w (by simp [hs]))⟩
    subst he
    have hs : ∀ s ∈ [Dml.Stmt.update as w], s.Simple md := by
      intro s hs
      cases List.mem_singleton.1 hs
      exact h as w (by simp)
    exact (Dml.fine_simple (F := F) (A := A) hm hs).1

/-- **C50 (partial).** The same for conditions that can be checked on the texts alone: the UPDATEs on the table set distinct
columns to values of their types. -/
theorem C50_simple_updates_partial {F : FloatOps} (hash : Bytes) {before after : List Q} {sp m : String} {md : Model}
    (hu : ∀ q ∈ before, Usual q)
    (hm : (serveAll (newServer hash) before).cat.models sp m = some md) (hpk : PkNonNull md)
    (hr : (serveAll (newServer hash) before).rows sp m = Rows.none)
    (hq : ∀ q ∈ after, Spares sp m q ∧ q.1.floats = F ∧ ∀ l, (q.1.order l).Perm l)
    (hf : ∀ q ∈ after, ∀ as w, stmtOn sp m q = some (.update as w) → Dml.SimpleUpd md as) :
    ∃ (rs : List Reply) (t : Tbl), answersOn sp m (serveAll (newServer hash) before) after = rs.map .rows ∧
      (serveAll (newServer hash) (before ++ after)).tbl sp m = some t ∧
      SpecRun F md (fun _ => none) (after.filterMap (stmtOn sp m)) (abs t) (rs.map Reply.norm) := by
  refine C50_tables_partial hash hu hm hpk hr hq (updatesFine_simple ((new_consistent hash before hu).models _ _ _ hm) ?_)
  intro as w h
  obtain ⟨q, h1, h2⟩ := List.mem_filterMap.1 h
  exact hf q h1 as w h2

section Example

private def ofl : Dml.FloatOps := ⟨fun a _ => a, fun a _ => a, fun a _ => a, fun a _ => a⟩
private def out : Outside :=
  ⟨Gns.fine 1, id, List.reverse, ofl, fun _ => none, fun _ => "", fun _ => [], fun _ => 0, true, fun _ => [], fun _ => [],
    fun sp => sp.models⟩
private def root : Sess := ⟨⟨"root", true⟩, none⟩
private def user : Sess := ⟨⟨"u", false⟩, some "s"⟩
private def before : List Q :=
  [(out, root, ascii "create space s", []),
   (out, root, ascii "create model s.m(primary id: uint64, n: uint8)", [])]
private def after : List Q :=
  [(out, user, ascii "insert into m(?, ?)", [2, 55, 10, 2, 49, 10]),
   (out, root, ascii "insert into s.m { n: ?, id: ? }", [2, 52, 10, 2, 56, 10]),
   (out, root, ascii "create model s.k(primary id: uint64, n: uint8)", []),
   (out, user, ascii "insert into m(?, ?)", [2, 55, 10, 2, 50, 10]),
   (out, user, ascii "update m set n = ? where id = ?", [2, 51, 10, 2, 55, 10]),
   (out, user, ascii "drop model s.m", []),
   (out, root, ascii "alter model s.k remove n", []),
   (out, user, ascii "select n, id from m where id = ?", [2, 55, 10]),
   (out, user, ascii "select n from m where id != ?", [2, 55, 10]),
   (out, root, ascii "select all id, n from s.m limit ?", [2, 49, 10]),
   (out, user, ascii "delete from m where id = ?", [2, 56, 10]),
   (out, root, ascii "select all id, n from s.m limit ?", [2, 57, 10])]

private def number : Cell → Nat
  | .uint _ v => v.toNat
  | _ => 1000

/-- The rows of an answer; `none` for an error. -/
private def seen : Answer → Option (List (List Nat))
  | .rows .empty => some []
  | .rows (.row cs) => some [cs.map number]
  | .rows (.rows _ rs) => some (rs.map (·.map number))
  | _ => none

/-- Two clients on a table while root works on another one; a duplicate is refused, and so are the `DROP MODEL` of a user and
a clause with another operator than `=`; a limit of one gives one row of two. -/
example : (answersOn "s" "m" (serveAll (newServer []) before) after).map seen =
    [some [], some [], none, some [], some [[3, 7]], none, some [[8, 4]], some [], some [[7, 3]]] := by
  decide +kernel

private theorem spares : ∀ q ∈ after, Spares "s" "m" q := by
  intro q hq
  simp only [after, List.mem_cons, List.not_mem_nil, or_false] at hq
  have yes : ∀ {q : Q}, (stmtOn "s" "m" q).isSome = true → Spares "s" "m" q := fun h _ _ => .inl h
  have no : ∀ {o x text params}, read o x text params = none → Spares "s" "m" (o, x, text, params) := by
    intro o x text params h a ha
    simp only at ha
    rw [h] at ha
    cases ha
  rcases hq with rfl | rfl | rfl | rfl | rfl | rfl | rfl | rfl | rfl | rfl | rfl | rfl
  · exact yes (by decide +kernel)
  · exact yes (by decide +kernel)
  · intro a ha
    have h : (read out root (ascii "create model s.k(primary id: uint64, n: uint8)") []).map
        (fun | .ddl (.createModel s m _ _ _) => (s, m) | _ => ("", "")) = some ("s", "k") := by decide +kernel
    simp only at ha
    rw [ha] at h
    simp only [Option.map_some, Option.some.injEq] at h
    split at h
    · cases h
      simp [Names, DdlNames]
    · simp at h
  · exact yes (by decide +kernel)
  · exact yes (by decide +kernel)
  · refine no ?_
    have h : (read out user (ascii "drop model s.m") []).isSome = false := by decide +kernel
    simpa using h
  · intro a ha
    have h : (read out root (ascii "alter model s.k remove n") []).map
        (fun | .ddl (.alterModel s m _) => (s, m) | _ => ("", "")) = some ("s", "k") := by decide +kernel
    simp only at ha
    rw [ha] at h
    simp only [Option.map_some, Option.some.injEq] at h
    split at h
    · cases h
      simp [Names, DdlNames]
    · simp at h
  · exact yes (by decide +kernel)
  · exact yes (by decide +kernel)
  · exact yes (by decide +kernel)
  · exact yes (by decide +kernel)
  · exact yes (by decide +kernel)

/-- **C50 is violated.** From the texts: a row is inserted and acknowledged, a column is added, and the row can no longer be
read; reading all rows crashes the connection. A column of type `uint8` holds 200, 100 is added, acknowledged, and the column
shows 300. -/
theorem C50_violated :
    ((answersOn "s" "m" (serveAll (newServer []) before)
      [(out, user, ascii "insert into m(?, ?)", [2, 55, 10, 2, 49, 10]),
       (out, root, ascii "alter model s.m add k { type: string }", []),
       (out, user, ascii "select * from m where id = ?", [2, 55, 10]),
       (out, user, ascii "select all * from m limit ?", [2, 57, 10])]).map fun
        | .rows .empty => 0 | .rows (.err .unknownField) => 1 | .rows .panic => 2 | _ => 3) = [0, 1, 2] ∧
    (answersOn "s" "m" (serveAll (newServer []) before)
      [(out, user, ascii "insert into m(?, ?)", [2, 55, 10, 2, 50, 48, 48, 10]),
       (out, user, ascii "update m set n += ? where id = ?", [2, 49, 48, 48, 10, 2, 55, 10]),
       (out, user, ascii "select n from m where id = ?", [2, 55, 10])]).map seen = [some [], some [], some [[300]]] := by
  decide +kernel

end Example

end Verif.Server
