import Verif.Ql.Complete
/-!
C47: what the parser accepts, and as what.
-/
namespace Verif.Ql
open Verif.Lex (Token Symbol Keyword KwStmt KwMisc Lit ascii)
open Gr

/-- **C47 (the parser accepts exactly the grammar).** For every list of tokens, current space and user: a query is
accepted as the statement `q` exactly if the grammar derives it as `q`, it is not one of the statements that are
shorter than the code allows (`Short`), and the user is root or `q` is not a statement on spaces and models. The grammar
(`Stmt`) does not mention the parser; what it permits beyond the usual grammar is marked *lax* there. -/
theorem C47_parser_is_grammar (isRoot : Bool) (e : Env) (q : Query) : parse isRoot e = .ok q ↔
    Stmt e.cs (calls e) e.toks q ∧ ¬ Short e.toks q ∧ (isRoot = true ∨ ∀ s, q ≠ .ddl s) := parse_iff

/-- **C47.** A query means at most one statement: if the grammar derives two, they are the same, or one of them is too
short. -/
theorem C47_one_meaning (e : Env) (q q' : Query) (h : Stmt e.cs (calls e) e.toks q) (h' : Stmt e.cs (calls e) e.toks q')
    (hs : ¬ Short e.toks q) (hs' : ¬ Short e.toks q') : q = q' := by
  have a := parse_complete (r := true) h (.inl rfl) hs
  have b := parse_complete (r := true) h' (.inl rfl) hs'
  rw [a] at b
  cases b
  rfl

/-- **C47.** A query that the grammar does not derive is never executed, whoever sends it. -/
theorem C47_nothing_else (isRoot : Bool) (e : Env) (h : ∀ q, ¬ Stmt e.cs (calls e) e.toks q) (q : Query) :
    parse isRoot e ≠ .ok q := fun hq => h q (parse_sound hq).1

section Witness

private def i (s : String) : Token := .ident (ascii s)
private def st (s : KwStmt) : Token := .kw (.statement s)
private def one : Token := .lit (.uint 1)

private def del : List Token := [st .delete, kw .from, i "a", tDot, i "b", kw .where, i "x", tEq, one]

/-- The grammar derives a statement, and the parser accepts it as that one. -/
example : Stmt none (calls { toks := del }) del (.rows ⟨"a", "b", .delete [("x", ⟨1, .uint 1⟩)]⟩) ∧
    parse false { toks := del } = .ok (.rows ⟨"a", "b", .delete [("x", ⟨1, .uint 1⟩)]⟩) :=
  have h : parse false { toks := del } = .ok (.rows ⟨"a", "b", .delete [("x", ⟨1, .uint 1⟩)]⟩) := rfl
  ⟨(parse_sound h).1, h⟩

/-- The derivation, without the parser. -/
example : Stmt none (fun _ _ => none) del (.rows ⟨"a", "b", .delete [("x", ⟨1, .uint 1⟩)]⟩) :=
  .rows (.delete (ns := [i "a", tDot, i "b"]) (ws := [i "x", tEq, one]) (.full (.mk (ascii "a") (ascii "b")))
    (.mk (k := 0) (.one (os := [tEq]) .eq) (by simp [Distinct]) (by decide)))

private def createOne : List Token :=
  [st .create, kw .model, i "a", tDot, i "b", tOP, i "k", tColon, i "string", tCP]

/-- **What is missing (C47).** `create model a.b(k: string)` is a statement of the grammar, but the parser wants at
least ten tokens behind `create model`. -/
theorem C47_one_column_refused : ∃ q, Stmt none (fun _ _ => none) createOne q ∧
    ∀ r, ¬ ∃ q, parse r { toks := createOne } = .ok q := by
  refine ⟨.ddl (.createModel "a" "b" [⟨"k", [⟨ascii "string", true⟩], false, false⟩] [] false), ?_, ?_⟩
  · exact .ddl (.createModel (os := []) (ns := [i "a", tDot, i "b"]) (fs := [i "k", tColon, i "string", tCP]) (ws := [])
      .no (.mk (ascii "a") (ascii "b")) (.last (ts := [i "k", tColon, i "string"]) (.plain (ts := [i "string"]) (.plain _))) .no)
  · intro r ⟨q, hq⟩
    cases r <;> cases hq

/-- `insert into m ()` in a session with a current space is refused. -/
theorem C47_empty_row_refused : parse false { toks := [st .insert, kw .into, i "m", tOP, tCP], cs := some "s" } =
    .err .unexpectedEnd := rfl

end Witness

end Verif.Ql
