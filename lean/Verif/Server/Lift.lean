import Verif.Server.Frame
import Verif.Gns.Theorems
import Verif.Dml.TableTheorems
/-!
What the parser delivers meets the conditions under which the theorems about statements were proved, and a history of query
texts is a history of statements: C09, C29 and C35 for query texts.
-/
namespace Verif.Server
open Verif.Lex (Token lex ascii)
open Verif.Enc (Fields DVal Dict Event)
open Verif.Gns (Cat Client World Op)
open Verif.Ql (Query Inspect)
open Verif.Ql.Gr (Value Items Body Elem Elems Datum Tuple Named Data)

/-! ### Dictionaries -/

/-- The values of the entries are well formed. -/
def EntriesOk (d : Dict) : Prop := ∀ e ∈ d, Gns.DistinctVal e.2 ∧ Gns.TypedVal e.2

theorem get_none_iff : ∀ {d : Dict} {k : String}, k ∉ d.map Prod.fst → Gns.get d k = none
  | [], _, _ => rfl
  | (a, v) :: d, k, h => by
    simp only [List.map_cons, List.mem_cons, not_or] at h
    rw [Gns.get]
    rw [if_neg (by intro e; exact h.1 (by first | exact e | exact e.symm))]
    exact get_none_iff h.2

theorem dict_ok : ∀ {d : Dict}, EntriesOk d → Ql.Gr.Distinct d → Gns.Distinct d ∧ Gns.Typed d
  | [], _, _ => ⟨trivial, trivial⟩
  | (k, v) :: d, h, hd => by
    simp only [Ql.Gr.Distinct, List.map_cons, List.nodup_cons] at hd
    obtain ⟨h1, h2⟩ := dict_ok (d := d) (fun e he => h e (by simp [he])) hd.2
    have hv := h (k, v) (by simp)
    exact ⟨⟨get_none_iff hd.1, hv.1, h1⟩, hv.2, h2⟩

theorem lit_typed (l : Lex.Lit) : Gns.TypedCell (Dml.cellOfLit l) := by
  cases l <;> simp [Dml.cellOfLit, Gns.TypedCell, Tag.cls]

mutual
theorem value_ok : ∀ {ts : List Token} {v : DVal}, Value ts v → Gns.DistinctVal v ∧ Gns.TypedVal v
  | _, _, .lit l => ⟨trivial, lit_typed l⟩
  | _, _, .null => ⟨trivial, trivial⟩
  | _, _, .map h hd => dict_ok (body_ok h) hd
theorem items_ok : ∀ {ts : List Token} {d : Dict}, Items ts d → EntriesOk d
  | _, _, .nil => fun e he => (by cases he)
  | _, _, .cons hv hi => by
    intro e he
    rcases List.mem_cons.1 he with rfl | he
    · exact value_ok hv
    · exact items_ok hi e he
theorem body_ok : ∀ {ts : List Token} {d : Dict}, Body ts d → EntriesOk d
  | _, _, .comma hi => items_ok hi
  | _, _, .last hi hv => by
    intro e he
    rcases List.mem_append.1 he with he | he
    · exact items_ok hi e he
    · cases List.mem_singleton.1 he
      exact value_ok hv
end

theorem map_ok {ts : List Token} {d : Dict} : Ql.Gr.Map ts d → Gns.Distinct d ∧ Gns.Typed d
  | .mk h hd => dict_ok (body_ok h) hd

theorem ddl_ok {ts : List Token} {s : Gns.Stmt} (h : Ql.Gr.Ddl ts s) : Gns.StmtOk s := by
  cases h with
  | createSpace ho hw =>
    cases hw with
    | no => exact ⟨trivial, trivial⟩
    | yes hm => exact map_ok hm
  | alterSpace hm => exact map_ok hm
  | _ => trivial

theorem sys_ok {ts : List Token} {s : Gns.Stmt} (h : Ql.Gr.Sys ts (.user s)) : Gns.StmtOk s := by
  cases h <;> trivial

/-! ### The data of an `INSERT` -/

theorem calls_not_null {e : Ql.Env} {b : Bytes} {i : Nat} {v : Cell} (h : Ql.calls e b i = some v) :
    v.isNull = false ∧ v.noNullInside = true := by
  simp only [Ql.calls, Option.map_eq_some_iff] at h
  obtain ⟨n, _, rfl⟩ := h
  unfold Ql.produce
  split <;> exact ⟨rfl, rfl⟩

theorem lit_not_null (l : Lex.Lit) : (Dml.cellOfLit l).isNull = false ∧ (Dml.cellOfLit l).noNullInside = true := by
  cases l <;> exact ⟨rfl, rfl⟩

mutual
theorem elem_ok {e : Ql.Env} : ∀ {i : Nat} {ts : List Token} {v : Cell}, Elem (Ql.calls e) i ts v →
    v.isNull = false ∧ v.noNullInside = true
  | _, _, _, .lit l => lit_not_null l
  | _, _, _, .call h => calls_not_null h
  | _, _, _, .empty => ⟨rfl, rfl⟩
  | _, _, _, .list h _ => ⟨rfl, by rw [Cell.noNullInside, noNullList_iff]; exact elems_ok h⟩
theorem elems_ok {e : Ql.Env} : ∀ {i : Nat} {ts : List Token} {l : List Cell}, Elems (Ql.calls e) i ts l →
    ∀ v ∈ l, v.isNull = false ∧ v.noNullInside = true
  | _, _, _, .last h => by
    have h1 := elem_ok h
    intro v hv
    rwa [List.mem_singleton.1 hv]
  | _, _, _, .more h hs => by
    have h1 := elem_ok h
    have h2 := elems_ok hs
    intro v hv
    rcases List.mem_cons.1 hv with e | hv
    · rwa [e]
    · exact h2 v hv
end

theorem datum_ok {e : Ql.Env} {i : Nat} {ts : List Token} {v : Cell} : Datum (Ql.calls e) i ts v → v.noNullInside = true
  | .elem h => (elem_ok h).2
  | .null => rfl

theorem tuple_ok {e : Ql.Env} : ∀ {i : Nat} {ts : List Token} {l : List Cell}, Tuple (Ql.calls e) i ts l →
    ∀ v ∈ l, v.noNullInside = true
  | _, _, _, .last h => fun v hv => by cases List.mem_singleton.1 hv; exact datum_ok h
  | _, _, _, .cut h => fun v hv => by cases List.mem_singleton.1 hv; exact datum_ok h
  | _, _, _, .more h hs => by
    intro v hv
    rcases List.mem_cons.1 hv with rfl | hv
    · exact datum_ok h
    · exact tuple_ok hs v hv

theorem named_ok {e : Ql.Env} : ∀ {i : Nat} {ts : List Token} {l : List (String × Cell)}, Named (Ql.calls e) i ts l →
    ∀ v ∈ l, v.2.noNullInside = true
  | _, _, _, .last h => fun v hv => by cases List.mem_singleton.1 hv; exact datum_ok h
  | _, _, _, .cut h => fun v hv => by cases List.mem_singleton.1 hv; exact datum_ok h
  | _, _, _, .more h hs => by
    intro v hv
    rcases List.mem_cons.1 hv with rfl | hv
    · exact datum_ok h
    · exact named_ok hs v hv

theorem data_ok {e : Ql.Env} {i : Nat} {ts : List Token} {d : Dml.InsData} (h : Data (Ql.calls e) i ts d) : d.Wf := by
  cases h with
  | noValues => exact fun _ h => (by cases h)
  | tuple h => exact tuple_ok h
  | noNames => exact ⟨List.nodup_nil, fun _ h => (by cases h)⟩
  | named h hd => exact ⟨hd, named_ok h⟩

/-! ### Queries -/

/-- What is known of every query that the parser accepts. -/
def QueryOk : Query → Prop
  | .ddl d => Gns.StmtOk d
  | .sysctl (.user d) => Gns.StmtOk d
  | .rows ⟨_, _, .insert d⟩ => d.Wf
  | _ => True

theorem read_ok {o : Outside} {x : Sess} {text params : Bytes} {q : Query} (h : read o x text params = some q) : QueryOk q := by
  unfold read at h
  split at h
  · cases h
  · split at h
    · rename_i hp
      cases h
      have hg := (Ql.parse_sound hp).1
      generalize hts : Ql.Env.toks _ = ts at hg
      cases hg with
      | ddl h => exact ddl_ok h
      | @sysctl _ c h =>
        cases c with
        | user d => exact sys_ok h
        | report => trivial
      | use h => trivial
      | inspect h => trivial
      | rows h =>
        cases h with
        | insert _ h => exact data_ok h
        | _ => trivial
    · cases h

/-! ### Histories of query texts -/

/-- A query of a session: what comes from outside, the state of the connection, the text and the parameters. -/
abbrev Q := Outside × Sess × Bytes × Bytes

/-- What a start does with the root account: it creates it in a new installation (`initialize_new`,
`storage/v2/mod.rs:101-119`), or sets the password if the configuration has another one (`restore`, lines 138-151). -/
inductive Start where
  | init (hash : Bytes)
  | setPassword (hash : Bytes)
  | same

def Start.ops : Start → List Op
  | .init h => [.initRoot h]
  | .setPassword h => [.setRoot h]
  | .same => []

/-- A run of the server from its start to its shutdown: what the start does, the rows that it restored, and the queries. -/
structure Run where
  start : Start
  rows : String → String → Rows
  queries : List Q

/-- Queries one after the other: the state and the events that went to the log of the catalogue. -/
def serveLog : Srv → List Q → Srv × List Event
  | s, [] => (s, [])
  | s, (o, x, text, params) :: qs =>
    match serve o s x text params with
    | (s', _, _, ev) =>
      match serveLog s' qs with
      | (s'', es) => (s'', ev.toList ++ es)

/-- One run that starts with the given catalogue: the state in the end and the events. -/
def Run.go (c : Cat) (r : Run) : Srv × List Event :=
  match Gns.session c r.start.ops with
  | (c, es) =>
    match serveLog ⟨c, r.rows⟩ r.queries with
    | (s, es') => (s, es ++ es')

/-- The catalogue after a number of runs of the server, each started after a clean shutdown of the one before, and the events
of each run. `none` if a start fails. `log` are the events so far. -/
def runs (log : List Event) (c : Cat) : List Run → Option (Cat × List (List Event))
  | [] => some (c, [])
  | r :: rs =>
    match r.go c with
    | (s, es) =>
      if rs.isEmpty then some (s.cat, [es])
      else
        match Gns.applyAll Cat.empty (log ++ es) with
        | .ok c' => (runs (log ++ es) c' rs).map fun (c'', ess) => (c'', es :: ess)
        | _ => none

/-- The step that a query is for the catalogue. -/
def opOf (s : Srv) (q : Q) : List Op :=
  match read q.1 q.2.1 q.2.2.1 q.2.2.2 with
  | some (.ddl d) => [.stmt q.1.perm q.2.1.client (worldFor s q.1.world d) d]
  | some (.sysctl (.user d)) => [.stmt q.1.perm q.2.1.client (worldFor s q.1.world d) d]
  | _ => []

def opsOf : Srv → List Q → List Op
  | _, [] => []
  | s, q :: qs => opOf s q ++ opsOf (serve q.1 s q.2.1 q.2.2.1 q.2.2.2).1 qs

theorem serve_op (s : Srv) (o : Outside) (x : Sess) (text params : Bytes) :
    Gns.session s.cat (opOf s (o, x, text, params)) =
      ((serve o s x text params).1.cat, (serve o s x text params).2.2.2.toList) := by
  unfold opOf
  simp only
  cases h : read o x text params with
  | none =>
    obtain ⟨h1, _, h3⟩ := (serve_read (s := s)).2 h
    rw [h1, h3]; rfl
  | some q =>
    rw [serve_read.1 q h]
    have hd : ∀ d, Gns.session s.cat [.stmt o.perm x.client (worldFor s o.world d) d] =
        ((runDdl o x.client s d).1.cat, (runDdl o x.client s d).2.2.toList) := by
      intro d
      simp [Gns.session, runDdl, Gns.Op.run]
    cases q with
    | ddl d => exact hd d
    | sysctl c =>
      cases c with
      | user d => exact hd d
      | report => rfl
    | use u => rfl
    | inspect i =>
      simp only [execute]
      split <;> rfl
    | rows q =>
      simp only [execute]
      split <;> rfl

theorem session_append : ∀ (a b : List Op) (c : Cat), Gns.session c (a ++ b) =
    ((Gns.session (Gns.session c a).1 b).1, (Gns.session c a).2 ++ (Gns.session (Gns.session c a).1 b).2)
  | [], b, c => rfl
  | o :: a, b, c => by
    simp only [List.cons_append, Gns.session]
    rw [session_append a b]
    simp

theorem serveLog_session : ∀ (qs : List Q) (s : Srv),
    Gns.session s.cat (opsOf s qs) = ((serveLog s qs).1.cat, (serveLog s qs).2)
  | [], s => rfl
  | (o, x, text, params) :: qs, s => by
    simp only [opsOf, serveLog]
    rw [session_append, serve_op]
    simp only
    rw [serveLog_session qs]

/-- The steps of a run. -/
def Run.ops (c : Cat) (r : Run) : List Op := r.start.ops ++ opsOf ⟨(Gns.session c r.start.ops).1, r.rows⟩ r.queries

theorem Run.go_session (c : Cat) (r : Run) : Gns.session c (r.ops c) = ((r.go c).1.cat, (r.go c).2) := by
  unfold Run.ops Run.go
  rw [session_append]
  have := serveLog_session r.queries ⟨(Gns.session c r.start.ops).1, r.rows⟩
  simp only at this ⊢
  rw [this]

/-- The steps of each run. -/
def runOps (log : List Event) (c : Cat) : List Run → List (List Op)
  | [] => []
  | r :: rs =>
    r.ops c ::
      match Gns.applyAll Cat.empty (log ++ (r.go c).2) with
      | .ok c' => runOps (log ++ (r.go c).2) c' rs
      | _ => rs.map fun _ => []

theorem runOps_length : ∀ (rs : List Run) (log : List Event) (c : Cat), (runOps log c rs).length = rs.length
  | [], _, _ => rfl
  | r :: rs, log, c => by
    simp only [runOps, List.length_cons]
    split
    · rw [runOps_length rs]
    · rw [List.length_map]

theorem runs_life : ∀ (rs : List Run) (log : List Event) (c : Cat),
    runs log c rs = Gns.life log c (runOps log c rs)
  | [], log, c => rfl
  | r :: rs, log, c => by
    simp only [runs, runOps, Gns.life]
    rw [r.go_session c]
    simp only
    have he : ∀ (ss : List (List Op)), ss.length = rs.length → ss.isEmpty = rs.isEmpty := by
      intro ss h
      cases ss <;> cases rs <;> simp_all
    cases ha : Gns.applyAll Cat.empty (log ++ (r.go c).2) with
    | ok c' =>
      simp only
      rw [he _ (runOps_length _ _ _), runs_life rs]
    | _ =>
      simp only
      rw [he _ (List.length_map _)]

/-- The conditions on a query: the hash maps iterate over all their entries, and it is not a forced `DROP SPACE` whose commit
fails. -/
def Usual (q : Q) : Prop :=
  (∀ fs, (q.1.perm fs).Perm fs) ∧
    ∀ n f, read q.1 q.2.1 q.2.2.1 q.2.2.2 = some (.ddl (.dropSpace n true f)) → q.1.world.commitOk = true

theorem opOf_ok {s : Srv} {q : Q} (h : Usual q) : ∀ o ∈ opOf s q, o.ok ∧ ¬ o.lostDrop := by
  intro o ho
  unfold opOf at ho
  split at ho
  · rename_i d hd
    cases List.mem_singleton.1 ho
    refine ⟨⟨h.1, read_ok hd⟩, fun hl => ?_⟩
    cases d with
    | dropSpace n force f =>
      cases force with
      | true =>
        have := h.2 n f hd
        simp [Op.lostDrop, worldFor, this] at hl
      | false => cases hl
    | _ => cases hl
  · rename_i d hd
    cases List.mem_singleton.1 ho
    refine ⟨⟨h.1, read_ok hd⟩, fun hl => ?_⟩
    have hs : ∀ n f, d ≠ .dropSpace n true f := by
      rintro n f rfl
      unfold read at hd
      split at hd
      · cases hd
      · split at hd
        · rename_i hp
          cases hd
          have hg := (Ql.parse_sound hp).1
          generalize Ql.Env.toks _ = ts at hg
          cases hg with
          | sysctl h => cases h
        · cases hd
    cases d with
    | dropSpace n force f =>
      cases force with
      | true => exact hs n f rfl
      | false => cases hl
    | _ => cases hl
  · cases ho

theorem opsOf_ok : ∀ {qs : List Q} {s : Srv}, (∀ q ∈ qs, Usual q) → ∀ o ∈ opsOf s qs, o.ok ∧ ¬ o.lostDrop
  | [], s, _, o, ho => by cases ho
  | q :: qs, s, h, o, ho => by
    rcases List.mem_append.1 ho with ho | ho
    · exact opOf_ok (h q (by simp)) o ho
    · exact opsOf_ok (fun q hq => h q (by simp [hq])) o ho

theorem runOps_ok : ∀ {rs : List Run} {log : List Event} {c : Cat}, (∀ r ∈ rs, ∀ q ∈ r.queries, Usual q) →
    ∀ s ∈ runOps log c rs, ∀ o ∈ s, o.ok ∧ ¬ o.lostDrop
  | [], log, c, _, s, hs, o, ho => by cases hs
  | r :: rs, log, c, h, s, hs, o, ho => by
    simp only [runOps] at hs
    rcases List.mem_cons.1 hs with rfl | hs
    · rcases List.mem_append.1 ho with ho | ho
      · have : ∀ st : Start, o ∈ st.ops → o.ok ∧ ¬ o.lostDrop := by
          intro st ho
          cases st <;> simp only [Start.ops, List.mem_cons, List.not_mem_nil, or_false] at ho
          · subst ho; exact ⟨trivial, fun h => h⟩
          · subst ho; exact ⟨trivial, fun h => h⟩
        exact this _ ho
      · exact opsOf_ok (h r (by simp)) o ho
    · split at hs
      · exact runOps_ok (fun r hr => h r (by simp [hr])) s hs o ho
      · obtain ⟨_, _, rfl⟩ := List.mem_map.1 hs
        cases ho

/-- **C09 for query texts, partial.** Take any number of runs of a server, each with any queries: texts and parameters sent by
any sessions of any users, in which any commit and any creation of a file may fail. Every start succeeds, and after the last
clean shutdown the log on disk opens and gives the catalogue as it was, down to the bytes of the file. Missing: as in
`C09_restart_rebuilds_the_catalogue_partial`. -/
theorem C09_query_texts_partial {rs : List Run} (hne : rs ≠ []) (h : ∀ r ∈ rs, ∀ q ∈ r.queries, Usual q) :
    ∃ c first rest, runs [] Cat.empty rs = some (c, first :: rest) ∧ (first :: rest).length = rs.length ∧
      ∀ hdr : Bytes, hdr.length = 64 →
      Journal.sizeBound ((first :: rest).map (·.map Gns.toEv)) + 64 < 2 ^ 62 →
      ∃ file w r,
        Journal.lifetime (Journal.eventLogDecode 11 Gns.gnsApply) Cat.empty hdr (first.map Gns.toEv)
          (rest.map (·.map Gns.toEv)) = some file ∧
        Journal.openJournal (Journal.eventLogDecode 11 Gns.gnsApply) Cat.empty file [] = .ok (w, r) ∧
        Gns.Rebuilt (Gns.cleared (first :: rest).flatten) c r := by
  have hlen := runOps_length rs [] Cat.empty
  have hne' : runOps [] Cat.empty rs ≠ [] := by
    intro he
    rw [he] at hlen
    cases rs with
    | nil => exact hne rfl
    | cons => simp at hlen
  obtain ⟨c, first, rest, h1, h2, h3⟩ := Gns.C09_restart_rebuilds_the_catalogue_partial hne' (runOps_ok h)
  exact ⟨c, first, rest, by rw [runs_life, h1], by rw [h2, hlen], h3⟩

/-- **C35 for query texts, partial.** After any runs of any queries the catalogue is consistent. Missing: as in
`C35_consistent_partial`. -/
theorem C35_query_texts_partial {rs : List Run} {c : Cat} {ess : List (List Event)}
    (h : ∀ r ∈ rs, ∀ q ∈ r.queries, Usual q) (hr : runs [] Cat.empty rs = some (c, ess)) : Gns.Consistent c := by
  rw [runs_life] at hr
  exact Gns.C35_consistent_partial (runOps_ok h) hr

section Example

private def ofl : Dml.FloatOps := ⟨fun a _ => a, fun a _ => a, fun a _ => a, fun a _ => a⟩
private def out : Outside :=
  ⟨Gns.fine 1, id, id, ofl, fun _ => none, fun _ => "", fun _ => [], fun _ => 0, true, fun _ => [], fun _ => [], fun sp => sp.models⟩
private def root : Sess := ⟨⟨"root", true⟩, none⟩
private def ex : List Run :=
  [⟨.init [1], fun _ _ => Rows.none,
     [(out, root, ascii "create space s with { env: { a: true } }", []),
      (out, ⟨⟨"u", false⟩, none⟩, ascii "drop space s", []),
      (out, root, ascii "create model s.m(primary id: uint64, n: uint8)", []),
      (out, root, ascii "create model s.", [])]⟩,
   ⟨.same, fun _ _ => Rows.none, [(out, root, ascii "alter model s.m add k { type: string }", [])]⟩]

/-- Two runs: one statement is refused, one is cut off, and the other three are in the log. -/
example : ((runs [] Cat.empty ex).map fun (c, ess) =>
    ((c.models "s" "m").map fun m => m.fields.map (·.1), ess.map (·.length))) =
      some (some ["id", "n", "k"], [3, 1]) := by
  decide +kernel

example : ∀ r ∈ ex, ∀ q ∈ r.queries, Usual q := by
  intro r hr q hq
  have ho : q.1 = out := by
    simp only [ex, List.mem_cons, List.not_mem_nil, or_false] at hr
    rcases hr with rfl | rfl <;> simp only [List.mem_cons, List.not_mem_nil, or_false] at hq
    · rcases hq with rfl | rfl | rfl | rfl <;> rfl
    · subst hq; rfl
  exact ⟨fun fs => by rw [ho]; exact .refl _, fun _ _ _ => by rw [ho]; rfl⟩

end Example

end Verif.Server
