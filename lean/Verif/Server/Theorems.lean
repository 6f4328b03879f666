import Verif.Server.Model
import Verif.Gns.Theorems
/-!
C28: only root changes the catalogue, from the bytes of the query to the state of the server.
-/
namespace Verif.Server
open Verif.Lex (Token LexError lex KwStmt Keyword ascii)
open Verif.Gns (Cat Client World)
open Verif.Ql

/-- A query of a session that is not root, executed after parsing. -/
theorem execute_not_root {o : Outside} {s : Srv} {x : Sess} (hx : x.client.root = false) (q : Query) :
    (execute o s x q).1.cat = s.cat ∧ (execute o s x q).2.2.2 = none := by
  have hd : ∀ d, (runDdl o x.client s d).1.cat = s.cat ∧ (runDdl o x.client s d).2.2 = none := by
    intro d
    unfold runDdl
    rw [Gns.C28_only_root_partial o.perm hx]
    exact ⟨rfl, rfl⟩
  cases q with
  | ddl d => exact hd d
  | sysctl c =>
    cases c with
    | user d => exact hd d
    | report => exact ⟨rfl, rfl⟩
  | use u => exact ⟨rfl, rfl⟩
  | inspect i =>
    simp only [execute]
    split <;> exact ⟨rfl, rfl⟩
  | rows q =>
    simp only [execute]
    split <;> exact ⟨rfl, rfl⟩

/-- The user of a connection never changes. -/
theorem serve_client (o : Outside) (s : Srv) (x : Sess) (text params : Bytes) :
    (serve o s x text params).2.1.client = x.client := by
  unfold serve
  split
  · rfl
  · split
    · rename_i q _
      cases q with
      | ddl d => rfl
      | sysctl c => cases c <;> rfl
      | use u =>
        simp only [execute, runUse]
        cases u with
        | null => rfl
        | space n => simp only; split <;> rfl
        | current =>
          simp only
          split
          · rfl
          · split <;> rfl
      | inspect i =>
        simp only [execute]
        split <;> rfl
      | rows q =>
        simp only [execute]
        split <;> rfl
    · rfl
    · rfl
    · rfl

/-- **C28.** Whatever bytes a session that is not root sends, in whatever state the server is: the spaces,
the models and the users stay as they are, and nothing is written to the log of the catalogue. -/
theorem C28_only_root (o : Outside) (s : Srv) (x : Sess) (hx : x.client.root = false) (text params : Bytes) :
    (serve o s x text params).1.cat = s.cat ∧ (serve o s x text params).2.2.2 = none := by
  unfold serve
  split
  · exact ⟨rfl, rfl⟩
  · split
    · exact execute_not_root hx _
    · exact ⟨rfl, rfl⟩
    · exact ⟨rfl, rfl⟩
    · exact ⟨rfl, rfl⟩

/-- Queries one after the other, of any sessions. -/
def serveAll : Srv → List (Outside × Sess × Bytes × Bytes) → Srv
  | s, [] => s
  | s, (o, x, t, p) :: qs => serveAll (serve o s x t p).1 qs

/-- Any number of queries of sessions that are not root leave the catalogue as it is. -/
theorem C28_history (s : Srv) (qs : List (Outside × Sess × Bytes × Bytes))
    (h : ∀ q ∈ qs, q.2.1.client.root = false) : (serveAll s qs).cat = s.cat := by
  induction qs generalizing s with
  | nil => rfl
  | cons q qs ih =>
    obtain ⟨o, x, t, p⟩ := q
    simp only [serveAll]
    rw [ih _ fun q hq => h q (List.mem_cons_of_mem _ hq)]
    exact (C28_only_root o s x (h (o, x, t, p) List.mem_cons_self) t p).1

/-- What is parsed for a query that begins with `CREATE`, `ALTER` or `DROP` by a session that is not root. -/
theorem parse_blocking {e : Env} {stmt : KwStmt} (h0 : e.toks[0]? = some (.kw (.statement stmt)))
    (hs : stmt = .create ∨ stmt = .alter ∨ stmt = .drop) : parse false e = .err .permDenied := by
  rcases e with ⟨toks, cs, us, ub, tm⟩
  cases toks with
  | nil => simp at h0
  | cons t toks =>
    simp at h0
    subst h0
    rcases hs with rfl | rfl | rfl <;> rfl

/-- **C28, the answer.** `CREATE`, `ALTER` and `DROP` by a session that is not root are answered with the
permission error, whatever follows. -/
theorem C28_permission_error (o : Outside) (s : Srv) (x : Sess) (hx : x.client.root = false)
    (text params : Bytes) (toks : List Token) (hl : lex o.pf text params = .ok toks) (stmt : KwStmt)
    (h0 : toks[0]? = some (.kw (.statement stmt))) (hs : stmt = .create ∨ stmt = .alter ∨ stmt = .drop) :
    serve o s x text params = (s, x, .syntaxError .permDenied, none) := by
  unfold serve
  rw [hl, hx]
  simp only
  rw [parse_blocking (by exact h0) hs]

/-- Without root, a query is parsed as it is with root, or it is refused. -/
theorem parse_not_root (e : Env) : parse false e = parse true e ∨ parse false e = .err .permDenied := by
  have hseq : ∀ r, dispatch r = P.seq tryStatement (fun stmt =>
      if stmt.isBlocking then runBlocking r stmt else runNb stmt) := fun _ => rfl
  unfold parse P.run
  rw [hseq, hseq]
  unfold P.seq
  cases tryStatement e ⟨0, true⟩ with
  | ok v =>
    obtain ⟨stmt, s⟩ := v
    simp only
    by_cases hb : stmt.isBlocking
    · simp only [hb, if_true]
      by_cases hs : stmt = .sysctl
      · exact .inl (by subst hs; rfl)
      · have : (stmt == KwStmt.sysctl) = false := by simpa using hs
        right
        simp [runBlocking, this, fail]
    · simp only [hb]
      exact .inl rfl
  | err _ => exact .inl rfl
  | panic => exact .inl rfl
  | hang => exact .inl rfl

/-- **C28, the answer.** If a query would change the catalogue when root sends it, then a session that is
not root gets the permission error for it. -/
theorem C28_refused (o : Outside) (s : Srv) (name : String) (cs : Option String) (root : Client)
    (hr : root.root = true) (text params : Bytes)
    (h : (serve o s ⟨root, cs⟩ text params).1.cat ≠ s.cat) :
    (serve o s ⟨⟨name, false⟩, cs⟩ text params).2.2.1 = .syntaxError .permDenied ∨
    (serve o s ⟨⟨name, false⟩, cs⟩ text params).2.2.1 = .ddl (.err .permDenied) := by
  unfold serve at h ⊢
  split at h
  · exact absurd rfl h
  · rename_i toks _
    simp only [hr] at h ⊢
    rcases parse_not_root ⟨toks, cs, o.uuidStr, o.uuidBin, o.time⟩ with hp | hp
    · rw [hp]
      split at h
      · rename_i q hq
        have hd : ∀ d, (runDdl o ⟨name, false⟩ s d).2.1 = .ddl (.err .permDenied) := by
          intro d
          unfold runDdl
          rw [Gns.C28_only_root_partial o.perm rfl]
        right
        cases q with
        | ddl d => exact hd d
        | sysctl c =>
          cases c with
          | user d => exact hd d
          | report => exact absurd rfl h
        | use u => exact absurd rfl h
        | inspect i =>
          simp only [execute] at h
          split at h <;> exact absurd rfl h
        | rows q =>
          simp only [execute] at h
          split at h <;> exact absurd rfl h
      all_goals exact absurd rfl h
    · rw [hp]
      exact .inl rfl

section Example

private def ofl : Dml.FloatOps := ⟨fun a _ => a, fun a _ => a, fun a _ => a, fun a _ => a⟩
private def out : Outside :=
  ⟨Gns.fine 1, id, id, ofl, fun _ => none, fun _ => "", fun _ => [], fun _ => 0, true, fun _ => [], fun _ => [], fun _ => []⟩

private def srv0 : Srv := ⟨Cat.empty, fun _ _ => Rows.none⟩

/-- The same text has an effect for root only. -/
example :
    ((serve out srv0 ⟨⟨"root", true⟩, none⟩ (ascii "create space s") []).1.cat.spaces "s").isSome = true ∧
    ((serve out srv0 ⟨⟨"u", false⟩, none⟩ (ascii "create space s") []).1.cat.spaces "s").isSome = false := by
  decide +kernel

end Example

end Verif.Server
