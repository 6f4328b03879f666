import Verif.Server.HubLemmas
import Verif.Dml.Answered
import Verif.Ql.Theorems
/-!
C77: every query is answered.
-/
namespace Verif.Server
open Verif.Lex (Token lex ascii)
open Verif.Gns (Cat Client Model World ModelOk Consistent fget AlterKind)
open Verif.Dml (Key Tbl Stmt RowsIn Returns AlterFine)
open Verif.Ql (Query)

/-! ### Specification -/

/-- The client gets an answer: the task of its connection neither panics nor goes on for ever. -/
def Answered (a : Answer) : Prop := (told a).isSome = true

/-- The answers to a list of queries. -/
def answersAll : Srv → List Q → List Answer
  | _, [] => []
  | s, (o, x, text, params) :: qs => (serve o s x text params).2.2.1 :: answersAll (serve o s x text params).1 qs

/-- What is asked of the outside: hash maps and the index iterate over all their entries, and no commit of a forced `DROP SPACE`
fails. -/
def Outer (q : Q) : Prop := Usual q ∧ ∀ l, (q.1.order l).Perm l

/-- The query is not an `ALTER MODEL ADD` of a model that has rows. -/
def AddsEarly (s : Srv) (q : Q) : Prop :=
  ∀ a b es, read q.1 q.2.1 q.2.2.1 q.2.2.2 = some (.ddl (.alterModel a b (.add es))) → (s.rows a b).idx = []

/-- This holds for all queries of a history. -/
def AllAddEarly : Srv → List Q → Prop
  | _, [] => True
  | s, q :: qs => AddsEarly s q ∧ AllAddEarly (serve q.1 s q.2.1 q.2.2.1 q.2.2.2).1 qs

/-- What is asked of a query that has to be answered: it is not one of the shapes on which the parser crashes (C21); no column
of an `ALTER MODEL` has `nullable: null` (C35); and an `UPDATE` does not divide by the integer 0, and does not append to a list
that is null in the row that it meets (C32). -/
structure Careful (s : Srv) (q : Q) : Prop where
  tame : ∀ toks, lex q.1.pf q.2.2.1 q.2.2.2 = .ok toks → Ql.Tame toks
  nullable : ∀ a b es, read q.1 q.2.1 q.2.2.1 q.2.2.2 = some (.ddl (.alterModel a b (.add es))) ∨
    read q.1 q.2.1 q.2.2.1 q.2.2.2 = some (.ddl (.alterModel a b (.update es))) →
    ∀ e ∈ es, Gns.get e.props "nullable" ≠ some (.data .null)
  update : ∀ a b st t, stmtOn a b q = some st → s.tbl a b = some t → Returns t st

/-! ### The invariant -/

/-- All tables are in order. -/
def AllRowsIn (s : Srv) : Prop := ∀ a b t, s.tbl a b = some t → RowsIn t

/-- A model that stays is the same, or what `ALTER MODEL` makes of it. -/
theorem exec_alter {perm : Enc.Fields → Enc.Fields} {u : Client} {c : Cat} {w : World} {s : Gns.Stmt} (hc : Consistent c)
    {a b : String} {md md' : Model} (h : c.models a b = some md)
    (h' : (Gns.exec perm u c w s).cat.models a b = some md') :
    md' = md ∨ ∃ k, s = .alterModel a b k ∧ md' = Dml.alterModel perm md k := by
  by_cases hs : ∀ x y k, s ≠ .alterModel x y k
  · exact .inl (exec_keep hc hs h h')
  · have : ∃ x y k, s = .alterModel x y k := by
      refine Classical.byContradiction fun hn => hs fun x y k he => hn ⟨x, y, k, he⟩
    obtain ⟨x, y, k, rfl⟩ := this
    by_cases hxy : x = a ∧ y = b
    · obtain ⟨rfl, rfl⟩ := hxy
      have hreply : ∀ {r}, (c.reply r).cat.models x y = some md' → md' = md := by
        intro r hx
        simp only [Gns.Cat.reply] at hx
        rw [h] at hx
        cases hx
        rfl
      have hcommit : ∀ {w e r m'}, 
          (c.commit w e { c with models := Gns.upd2 c.models x y (some m') } r).cat.models x y = some md' →
          md' = md ∨ md' = m' := by
        intro w e r m' hx
        unfold Gns.Cat.commit at hx
        split at hx
        · simp [Gns.upd2] at hx
          exact .inr hx.symm
        · exact .inl (hreply hx)
      suffices hh : md' = md ∨ md' = Dml.alterModel perm md k by
        rcases hh with hh | hh
        · exact .inl hh
        · exact .inr ⟨k, rfl, hh⟩
      unfold Gns.exec at h'
      split at h'
      · simp only at h'
        unfold Gns.execAlterModel at h'
        rw [h] at h'
        simp only at h'
        unfold Dml.alterModel
        split at h'
        · exact .inl (hreply h')
        · split at h'
          · exact .inl (hreply h')
          · exact .inl (hreply h')
          · exact .inl (hreply h')
          · exact .inl (hreply h')
          · exact .inl (hreply h')
          · rename_i hp; rw [hp]; exact hcommit h'
          · rename_i hp; rw [hp]; exact hcommit h'
          · rename_i hp
            rw [hp]
            simp only
            split at h'
            · rename_i hr; rw [hr]; exact hcommit h'
            · left
              unfold Gns.Cat.commit at h'
              split at h'
              · rw [h] at h'; cases h'; rfl
              · exact hreply h'
      · exact .inl (hreply h')
    · have := (exec_frame perm u c w (.alterModel x y k)).models a b (by
        simp only [DdlNames, Part.decl.injEq]
        rintro ⟨rfl, rfl⟩; exact hxy ⟨rfl, rfl⟩)
      rw [this, h] at h'
      cases h'
      exact .inl rfl

theorem runDdl_rowsIn {o : Outside} {u : Client} {s : Srv} (hc : Consistent s.cat) (hp : ∀ fs, (o.perm fs).Perm fs) (h : AllRowsIn s)
    (d : Gns.Stmt) (ha : ∀ a b es, d = .alterModel a b (.add es) → (s.rows a b).idx = []) : AllRowsIn (runDdl o u s d).1 := by
  intro a b t ht
  unfold Srv.tbl runDdl at ht
  simp only at ht
  cases h' : (Gns.exec o.perm u s.cat (worldFor s o.world d) d).cat.models a b with
  | none => rw [h'] at ht; cases ht
  | some md' =>
    rw [h'] at ht
    simp only [Option.map_some, Option.some.injEq] at ht
    subst ht
    cases h0 : s.cat.models a b with
    | none =>
      have : follow s.cat (Gns.exec o.perm u s.cat (worldFor s o.world d) d).cat s.rows a b = Rows.none := by simp [follow, h0]
      rw [this]
      exact fun e he => (by cases he)
    | some md =>
      have hf : follow s.cat (Gns.exec o.perm u s.cat (worldFor s o.world d) d).cat s.rows a b = s.rows a b := by simp [follow, h0, h']
      rw [hf]
      have hg : RowsIn ⟨md, (s.rows a b).heap, (s.rows a b).idx, (s.rows a b).ver, (s.rows a b).queue⟩ :=
        h a b _ (by unfold Srv.tbl; rw [h0]; rfl)
      rcases exec_alter hc h0 h' with rfl | ⟨k, rfl, rfl⟩
      · exact hg
      · refine hg.alter hp (hc.models _ _ _ h0) k ?_
        cases k with
        | add es => exact ha a b es rfl
        | _ => trivial

theorem sysctl_not_alter {o : Outside} {x : Sess} {text params : Bytes} {d : Gns.Stmt}
    (h : read o x text params = some (.sysctl (.user d))) : ∀ a b k, d ≠ .alterModel a b k := by
  rintro a b k rfl
  unfold read at h
  split at h
  · cases h
  · split at h
    · rename_i hp
      cases h
      have hg := (Ql.parse_sound hp).1
      generalize Ql.Env.toks _ = ts at hg
      cases hg with
      | sysctl h => cases h
    · cases h

/-- Every query keeps the tables in order, whether it is answered or not. -/
theorem serve_rowsIn {o : Outside} {s : Srv} {x : Sess} {text params : Bytes} (hc : Consistent s.cat) (h : AllRowsIn s)
    (hq : Outer (o, x, text, params)) (ha : AddsEarly s (o, x, text, params)) : AllRowsIn (serve o s x text params).1 := by
  cases hr : read o x text params with
  | none => rw [(serve_read.2 hr).1]; exact h
  | some q =>
    cases q with
    | rows r =>
      cases ht : s.tbl r.space r.model with
      | none =>
        rw [serve_read.1 _ hr]
        simp only [execute, ht]
        exact h
      | some t =>
        have hst : stmtOn r.space r.model (o, x, text, params) = some (asks r.stmt) := by simp [stmtOn, hr]
        have hm : ModelOk t.model := by
          unfold Srv.tbl at ht
          cases hmd : s.cat.models r.space r.model with
          | none => rw [hmd] at ht; cases ht
          | some md => rw [hmd] at ht; cases ht; exact hc.models _ _ _ hmd
        have hg := Dml.exec_rowsIn (F := o.floats) (order := o.order) (st := asks r.stmt) (fun e he => (hq.2 t.idx).mem_iff.1 he) hm (h _ _ _ ht)
          (fun d hd => stmtOn_wf (by rw [hst, hd]))
        rw [stmtOn_serve hst ht]
        have hmod : (Dml.exec o.floats o.order t (asks r.stmt)).1.model = t.model := exec_same
        intro a b t' ht'
        by_cases hab : a = r.space ∧ b = r.model
        · obtain ⟨rfl, rfl⟩ := hab
          rw [tbl_setRows ht hmod] at ht'
          cases ht'
          exact hg
        · refine h a b t' ?_
          unfold Srv.tbl at ht' ⊢
          simp only [Srv.setRows, hab, if_false] at ht'
          exact ht'
    | ddl d =>
      rw [serve_read.1 _ hr]
      exact runDdl_rowsIn hc hq.1.1 h d (fun a b es e => ha a b es (by rw [hr, e]))
    | sysctl c =>
      rw [serve_read.1 _ hr]
      cases c with
      | user d => exact runDdl_rowsIn hc hq.1.1 h d (fun a b es e => absurd e (sysctl_not_alter hr a b _))
      | report => exact h
    | use u => rw [serve_read.1 _ hr]; exact h
    | inspect i =>
      rw [serve_read.1 _ hr]
      simp only [execute]
      split <;> exact h

theorem serve_cons {o : Outside} {s : Srv} {x : Sess} {text params : Bytes} (hc : Consistent s.cat)
    (hq : Usual (o, x, text, params)) : Consistent (serve o s x text params).1.cat := by
  have h1 := serve_op s o x text params
  cases hop : opOf s (o, x, text, params) with
  | nil =>
    rw [hop] at h1
    simp only [Gns.session, Prod.mk.injEq] at h1
    rw [← h1.1]; exact hc
  | cons op rest =>
    have hrest : rest = [] := by
      unfold opOf at hop
      split at hop <;> simp at hop <;> first | exact hop.2.symm | exact hop.2
    subst hrest
    have hok := opOf_ok (s := s) hq op (by rw [hop]; simp)
    have h2 := (Gns.step_ok op hc hok.1 hok.2).cons
    rw [hop] at h1
    simp only [Gns.session] at h1
    have : (op.run s.cat).cat = (serve o s x text params).1.cat := by
      have := congrArg Prod.fst h1
      simpa using this
    rw [← this]
    exact h2

/-! ### Answers -/

theorem ddl_answered {r : Res Gns.QErr (Option Bool)} (h : r.returns = true) : Answered (.ddl r) := by
  cases r with
  | ok v => cases v <;> rfl
  | err e => rfl
  | panic => cases h
  | hang => cases h

theorem rows_answered {r : Dml.Reply} (h : r ≠ .panic) : Answered (.rows r) := by
  cases r <;> first | rfl | exact absurd rfl h

/-- **C77, partial: one query.** In a server with a consistent catalogue and tables in order every careful query is answered.
Missing (and false, see below): the other queries. -/
theorem C77_query_partial {o : Outside} {s : Srv} {x : Sess} {text params : Bytes} (hc : Consistent s.cat) (h : AllRowsIn s)
    (hq : Outer (o, x, text, params)) (hk : Careful s (o, x, text, params)) :
    Answered (serve o s x text params).2.2.1 := by
  have hddl : ∀ d, (read o x text params = some (.ddl d) ∨ read o x text params = some (.sysctl (.user d))) →
      (Gns.exec o.perm x.client s.cat (worldFor s o.world d) d).reply.returns = true := by
    intro d hd
    have hmem : Gns.Op.stmt o.perm x.client (worldFor s o.world d) d ∈ opOf s (o, x, text, params) := by
      unfold opOf
      rcases hd with hd | hd <;> simp [hd]
    have hok := opOf_ok (s := s) hq.1 _ hmem
    refine (Gns.C35_statements_return_partial hc hok.1 hok.2 ?_).1
    intro hn
    rcases hd with hd | hd
    · cases d with
      | alterModel a b k =>
        cases k with
        | add es => obtain ⟨e, he, h1⟩ := hn; exact hk.nullable a b es (.inl hd) e he h1
        | update es => obtain ⟨e, he, h1⟩ := hn; exact hk.nullable a b es (.inr hd) e he h1
        | remove ns => exact hn
      | _ => exact hn
    · cases d with
      | alterModel a b k => exact absurd rfl (sysctl_not_alter hd a b k)
      | _ => exact hn
  cases hr : read o x text params with
  | none =>
    have ht := hk.tame
    simp only at ht
    unfold read at hr
    unfold serve
    cases hl : lex o.pf text params with
    | error e => rfl
    | ok toks =>
      simp only
      rcases Ql.C21_no_crash_partial x.client.root ⟨toks, x.cs, o.uuidStr, o.uuidBin, o.time⟩ (ht toks hl) with ⟨q, h1⟩ | ⟨e, h1⟩
      · rw [hl] at hr; simp only [h1] at hr; cases hr
      · simp only [h1]; rfl
  | some q =>
    rw [serve_read.1 _ hr]
    cases q with
    | ddl d => exact ddl_answered (hddl d (.inl hr))
    | sysctl c =>
      cases c with
      | user d => exact ddl_answered (hddl d (.inr hr))
      | report => simp only [execute]; split <;> rfl
    | use u =>
      simp only [execute, runUse]
      repeat' split
      all_goals rfl
    | inspect i =>
      simp only [execute]
      split <;> rfl
    | rows r =>
      rw [← serve_read.1 _ hr]
      have hst : stmtOn r.space r.model (o, x, text, params) = some (asks r.stmt) := by simp [stmtOn, hr]
      cases ht : s.tbl r.space r.model with
      | none =>
        rw [serve_read.1 _ hr]
        simp only [execute, ht]
        rfl
      | some t =>
        have hm : ModelOk t.model := by
          unfold Srv.tbl at ht
          cases hmd : s.cat.models r.space r.model with
          | none => rw [hmd] at ht; cases ht
          | some md => rw [hmd] at ht; cases ht; exact hc.models _ _ _ hmd
        rw [stmtOn_serve hst ht]
        exact rows_answered (Dml.exec_returns (fun e he => (hq.2 t.idx).mem_iff.1 he) hm (h _ _ _ ht)
          (fun d hd => stmtOn_wf (by rw [hst, hd])) (hk.update _ _ _ _ hst ht))

theorem serveAll_rowsIn : ∀ {qs : List Q} {s : Srv}, Consistent s.cat → AllRowsIn s → (∀ q ∈ qs, Outer q) → AllAddEarly s qs →
    Consistent (serveAll s qs).cat ∧ AllRowsIn (serveAll s qs)
  | [], _, hc, h, _, _ => ⟨hc, h⟩
  | (o, x, text, params) :: qs, s, hc, h, hq, ha => by
    have h0 := hq (o, x, text, params) (by simp)
    exact serveAll_rowsIn (qs := qs) (s := (serve o s x text params).1) (serve_cons hc h0.1) (serve_rowsIn hc h h0 ha.1) (fun q hq' => hq q (by simp [hq'])) ha.2

theorem new_rowsIn (hash : Bytes) : AllRowsIn (newServer hash) := by
  intro a b t ht
  unfold Srv.tbl at ht
  cases h : (newServer hash).cat.models a b with
  | none => rw [h] at ht; cases ht
  | some m => rw [h] at ht; cases ht; exact fun e he => (by cases he)

/-- **C77, partial.** Take any history of queries on a new server, of any sessions of any users, whether they are answered or
not, in which columns are added to a model only as long as it has no rows. Then every careful query is answered. Missing (and
false, see below): histories that add columns to models with rows or in which the commit of a forced `DROP SPACE` fails, and
the queries that are not careful. -/
theorem C77_answered_partial (hash : Bytes) {qs : List Q} (hq : ∀ q ∈ qs, Outer q) (ha : AllAddEarly (newServer hash) qs)
    {o : Outside} {x : Sess} {text params : Bytes} (h1 : Outer (o, x, text, params))
    (hk : Careful (serveAll (newServer hash) qs) (o, x, text, params)) :
    Answered (serve o (serveAll (newServer hash) qs) x text params).2.2.1 := by
  have hc : Consistent (newServer hash).cat := new_consistent hash [] (fun _ h => (by cases h))
  obtain ⟨c1, c2⟩ := serveAll_rowsIn hc (new_rowsIn hash) hq ha
  exact C77_query_partial c1 c2 h1 hk

/-- **C77, partial: connections.** In such a server a connection that completes a careful query gets a reply, and goes on. -/
theorem C77_connection_goes_on_partial {H : Host} {h : Hub} (hc : Consistent h.srv.cat) (ht : AllRowsIn h.srv) {i : Nat} {o : Outside}
    {chunk : Bytes} {c c' : Net.Conn} {x : Sess} {text params : Bytes} (hi : h.con i = .talking c x)
    (hf : c.feed chunk = (c', .query text params)) (hq : Outer (o, x, text, params))
    (hk : Careful h.srv (o, x, text, params)) :
    ∃ r x' s', told (serve o h.srv x text params).2.2.1 = some r ∧
      h.step H (.read i o chunk) = some (Hub.set ⟨s', h.con⟩ i (.talking c' x'), Net.Reply.send (r.resp H.text)) := by
  have ha := C77_query_partial hc ht hq hk
  obtain ⟨r, hr⟩ := Option.isSome_iff_exists.1 ha
  refine ⟨r, (serve o h.srv x text params).2.1, (serve o h.srv x text params).1, hr, ?_⟩
  simp only [Hub.step, hi, hf]
  generalize serve o h.srv x text params = z at hr ⊢
  obtain ⟨s', x', a, ev⟩ := z
  simp only at hr ⊢
  rw [hr]

/-! ### What is false -/

section Witness

private def ofl : Dml.FloatOps := ⟨fun a _ => a, fun a _ => a, fun a _ => a, fun a _ => a⟩
private def out (n : Fin 256) : Outside :=
  ⟨Gns.fine n, id, id, ofl, fun _ => none, fun _ => "", fun _ => [], fun _ => 0, true, fun _ => [], fun _ => [], fun sp => sp.models⟩
private def broken : Outside := { out 9 with world := { Gns.fine 9 with commitOk := false } }
private def root : Sess := ⟨⟨"root", true⟩, none⟩
private def user : Sess := ⟨⟨"u", false⟩, some "s"⟩
private def q (t : String) : Q := (out 9, root, ascii t, [])

/-- Root creates a model; a user inserts a row with the key 7, whose list is null. -/
private def before : List Q :=
  [(out 1, root, ascii "create space s", []),
   (out 2, root, ascii "create model s.m(primary id: uint64, n: uint8, null l: list { type: uint8 })", []),
   (out 3, user, ascii "insert into m(?, ?, null)", [2, 55, 10, 2, 53, 10])]

/-- Whether each of the queries is answered. -/
private def heard (qs : List Q) : List Bool := (answersAll (newServer []) qs).map fun a => (told a).isSome

/-- Answers to queries of several kinds: with errors, with rows, and with nothing; an `UPDATE` that stores 255 + 255. -/
example : heard (before ++
    [(out 4, user, ascii "insert into m(?, ?, null)", [2, 55, 10, 2, 53, 10]),
     (out 5, user, ascii "update m set n += ? where id = ?", [2, 53, 53, 53, 10, 2, 55, 10]),
     (out 5, user, ascii "update m set n /= ? where id = ?", [2, 53, 10, 2, 55, 10]),
     q "select all * from s.m limit 5", q "alter model s.m remove n", q "select all * from s.m limit 5",
     q "drop model s.m", q "inspect space s", q "use $current", q "no such thing"]) = List.replicate 13 true := by
  decide +kernel

private def isAlter : Option Query → Bool
  | some (.ddl (.alterModel _ _ _)) => true
  | _ => false

private def isUpdate : Option Query → Bool
  | some (.rows ⟨_, _, .update _ _⟩) => true
  | _ => false

private def isSelectAll : Option Query → Bool
  | some (.rows ⟨_, _, .selectAll _ _⟩) => true
  | _ => false

private theorem outer_of {p : Q} (hp : ∀ l, p.1.perm l = l) (ho : ∀ l, p.1.order l = l) (hw : p.1.world.commitOk = true) : Outer p :=
  ⟨⟨fun l => by rw [hp], fun _ _ _ => hw⟩, fun l => by rw [ho]⟩

private theorem early_of {s : Srv} {p : Q} (h : isAlter (read p.1 p.2.1 p.2.2.1 p.2.2.2) = false) : AddsEarly s p := by
  intro a b es he
  rw [he] at h
  cases h

/-- The hypotheses of the theorem hold for a real query after a real history: reading all rows. -/
example : (∀ p ∈ before, Outer p) ∧ AllAddEarly (newServer []) before ∧
    Careful (serveAll (newServer []) before) (out 4, user, ascii "select all * from m limit ?", [2, 57, 10]) ∧
    isSelectAll (read (out 4) user (ascii "select all * from m limit ?") [2, 57, 10]) = true := by
  refine ⟨?_, ⟨early_of ?_, early_of ?_, early_of ?_, trivial⟩, ⟨?_, ?_, ?_⟩, by decide +kernel⟩
  · intro p hp
    simp only [before, List.mem_cons, List.not_mem_nil, or_false] at hp
    rcases hp with rfl | rfl | rfl <;> exact outer_of (fun _ => rfl) (fun _ => rfl) rfl
  · decide +kernel
  · decide +kernel
  · decide +kernel
  · have hl : lex (out 4).pf (ascii "select all * from m limit ?") [2, 57, 10] =
        .ok [.kw (.statement .select), Ql.kw .all, Ql.tStar, Ql.kw .from, .ident (ascii "m"), Ql.kw .limit, .lit (.uint 9)] := by
      decide +kernel
    intro toks ht
    simp only at ht
    rw [hl] at ht
    cases ht
    constructor
    · simp
    · simp
    · simp
    · intro _ h; simp at h
    · intro _ _ i t hi ht
      match i with
      | 0 => simp [Ql.kw] at hi
      | 1 => simp [Ql.kw] at hi
      | 2 => simp [Ql.kw, Ql.tStar] at hi
      | 3 => simp [Ql.kw] at hi
      | 4 => simp [Ql.kw] at hi
      | 5 => simp at ht; exact ⟨_, ht.symm⟩
      | 6 => simp [Ql.kw] at hi
      | n + 7 => simp at hi
  · have hn : isAlter (read (out 4) user (ascii "select all * from m limit ?") [2, 57, 10]) = false := by decide +kernel
    rintro a b es (he | he) <;> (simp only at he; rw [he] at hn; cases hn)
  · have hn : isUpdate (read (out 4) user (ascii "select all * from m limit ?") [2, 57, 10]) = false := by decide +kernel
    intro a b st t hs _
    unfold stmtOn at hs
    split at hs
    · rename_i r hr
      simp only at hr
      rw [hr] at hn
      split at hs
      · cases hs
        obtain ⟨sp, m, rst⟩ := r
        cases rst <;> first | trivial | cases hn
      · cases hs
    · cases hs

/-- **C77 is violated.** Seven histories whose last query gets no answer: a user who may not do anything but read and write
rows divides by zero; appends to a list that is null; leaves out the end of a `SELECT`; root gives `nullable: null`; adds a
column to a model with rows, after which reading all rows fails; or drops a space by force while the disk is full, after which
altering its model fails. -/
theorem C77_violated :
    heard (before ++ [(out 4, user, ascii "update m set n /= ? where id = ?", [2, 48, 10, 2, 55, 10])]) = [true, true, true, false] ∧
    heard (before ++ [(out 4, user, ascii "update m set l += ? where id = ?", [2, 49, 10, 2, 55, 10])]) = [true, true, true, false] ∧
    heard (before ++ [(out 4, user, ascii "select * from m", [])]) = [true, true, true, false] ∧
    heard (before ++ [(out 4, user, ascii "insert into s.m([[", [])]) = [true, true, true, false] ∧
    heard (before ++ [q "alter model s.m add x { type: string, nullable: null }"]) = [true, true, true, false] ∧
    heard (before ++ [q "alter model s.m add x { type: string }",
      (out 4, user, ascii "select all * from m limit ?", [2, 57, 10])]) = [true, true, true, true, false] ∧
    heard (before ++ [(broken, root, ascii "drop space allow not empty s", []),
      q "alter model s.m remove n"]) = [true, true, true, true, false] := by
  decide +kernel

end Witness

end Verif.Server
