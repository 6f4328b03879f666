import Verif.Ql.SafeDml
/-!
C21: the parser and the dispatch never crash, for every list of tokens outside of five shapes; and what
happens for those.
-/
namespace Verif.Ql
open Verif.Lex (Token Symbol Keyword KwStmt KwMisc Lit ascii)

/-- The lists of tokens that are not one of the shapes for which a statement crashes. -/
structure Tame (toks : List Token) : Prop where
  /-- An `INSERT` does not end with `[`. -/
  insert : toks[0]? = some (.kw (.statement .insert)) → toks.getLast? ≠ some tOS
  /-- A `CREATE MODEL` does not have `primary` or `null` as its last token but one. -/
  createModel : toks[0]? = some (.kw (.statement .create)) → toks[1]? = some (kw .model) →
    ∀ t, toks[toks.length - 2]? = some t → t ≠ kw .primary ∧ t ≠ kw .null
  /-- An `ALTER MODEL` has at least six tokens, as many `{` as `}`, and its last token but one is not
  `type`. -/
  alterModel : toks[0]? = some (.kw (.statement .alter)) → toks[1]? = some (kw .model) →
    6 ≤ toks.length ∧ toks.count tOB = toks.count tCB ∧ toks[toks.length - 2]? ≠ some (kw .type)
  /-- A `SELECT` has a `from` with three more tokens. -/
  select : toks[0]? = some (.kw (.statement .select)) → toks[1]? ≠ some (kw .all) →
    ∃ k, toks[k]? = some (kw .from) ∧ k + 4 ≤ toks.length
  /-- In a `SELECT ALL` a literal follows after every `limit`. -/
  selectAll : toks[0]? = some (.kw (.statement .select)) → toks[1]? = some (kw .all) →
    ∀ k t, toks[k]? = some (kw .limit) → toks[k + 1]? = some t → ∃ l, t = .lit l

theorem bal_total (l : List Token) : (l.map br).sum = (l.count tOB : Int) - l.count tCB := by
  induction l with
  | nil => rfl
  | cons t l ih =>
    simp only [List.map_cons, List.sum_cons, ih, List.count_cons]
    by_cases h1 : t = tOB
    · subst h1
      have : (tOB == tCB) = false := by decide
      simp [br, this]; omega
    · by_cases h2 : t = tCB
      · subst h2
        have : (tCB == tOB) = false := by decide
        simp [br, this]; omega
      · have : br t = 0 := by
          unfold br
          split <;> simp_all
        simp [this, h1, h2]

theorem hardened_safe {α : Type} {p : P α} {e : Env} {s : St} (h : wp p e (fun _ s' => s'.i ≤ e.toks.length) s) :
    wp (hardened p) e (fun _ _ => True) s := by
  simp only [hardened]
  wps
  refine wp_mono h fun a s' h' => ⟨h', fun _ => trivial, fun _ => trivial⟩

theorem hardened_map {α β : Type} {p : P α} {g : α → β} {e : Env} {s : St}
    (h : wp p e (fun _ s' => s'.i ≤ e.toks.length) s) :
    wp (do let r ← hardened p; pure (g r)) e (fun _ _ => True) s := by
  wps
  exact hardened_safe h

theorem stmtCode_blocking : ∀ stmt : KwStmt, stmt.isBlocking = true →
    stmt = .sysctl ∨ stmt = .create ∨ stmt = .alter ∨ stmt = .drop := by
  intro stmt; cases stmt <;> simp [KwStmt.isBlocking]

theorem blkCode_cases (stmt : KwStmt) (a b : Token) : blkCode stmt a b ≤ 7 ∧
    (blkCode stmt a b = 3 → stmt = .create ∧ a = kw .model) ∧
    (blkCode stmt a b = 5 → stmt = .alter ∧ a = kw .model) := by
  by_cases h1 : a = kw .space
  · subst h1
    have e1 : (kw .space == kw .model) = false := by decide
    cases stmt <;> simp [blkCode, e1]
    all_goals generalize isId b = x; generalize (b == kw .if) = y; try generalize (b == kw .allow) = z
    all_goals revert x y
    all_goals try revert z
    all_goals decide
  · have e1 : (a == kw .space) = false := by simpa using h1
    by_cases h2 : a = kw .model
    · subst h2
      cases stmt <;> simp [blkCode, e1]
      all_goals generalize isId b = x; generalize (b == kw .if) = y; try generalize (b == kw .allow) = z
      all_goals revert x y
      all_goals try revert z
      all_goals decide
    · have e2 : (a == kw .model) = false := by simpa using h2
      have k1 : (KwStmt.create == KwStmt.sysctl) = false := by decide
      have k2 : (KwStmt.alter == KwStmt.sysctl) = false := by decide
      have k3 : (KwStmt.drop == KwStmt.sysctl) = false := by decide
      cases stmt <;> simp [blkCode, e1, e2, k1, k2, k3] <;> decide

theorem blkExec_safe {e : Env} {stmt : KwStmt} {a b : Token} (ht : Tame e.toks) (h2 : 3 ≤ e.toks.length)
    (h0 : e.toks[0]? = some (.kw (.statement stmt))) (h1 : e.toks[1]? = some a) (f : Bool) :
    wp (blkExec (blkCode stmt a b)) e (fun _ _ => True) ⟨1 + (stmt != .sysctl).toNat, f⟩ := by
  obtain ⟨c7, c3, c5⟩ := blkCode_cases stmt a b
  generalize hc : blkCode stmt a b = c at *
  have hx : (stmt != .sysctl).toNat ≤ 1 := by cases (stmt != .sysctl) <;> simp
  have hle : 1 + (stmt != .sysctl).toNat ≤ e.toks.length := by omega
  match c with
  | 0 => trivial
  | 1 => exact hardened_map (sysctl_safe hle)
  | 2 => exact hardened_map (createSpace_safe hle)
  | 3 =>
    obtain ⟨rfl, rfl⟩ := c3 rfl
    exact hardened_map (createModel_safe hle (ht.createModel h0 h1))
  | 4 => exact hardened_map (alterSpace_safe hle)
  | 5 =>
    obtain ⟨rfl, rfl⟩ := c5 rfl
    obtain ⟨t1, t2, t3⟩ := ht.alterModel h0 h1
    have b1 : bal e 1 = bal e 0 + br (.kw (.statement .alter)) := bal_succ h0
    have b2 : bal e 2 = bal e 1 + br (kw .model) := bal_succ h1
    have b0 : bal e 0 = 0 := by simp [bal]
    simp only [br] at b1 b2
    refine hardened_map (alterModel_safe hle (by simp; omega) ⟨?_, t3⟩ ?_)
    · simp [bal, bal_total, t2]
    · have : (KwStmt.alter != KwStmt.sysctl).toNat = 1 := by decide
      rw [this]
      show bal e 2 = 0
      omega
  | 6 => exact hardened_map (dropSpace_safe hle)
  | 7 => exact hardened_map (dropModel_safe hle)
  | n + 8 => omega

theorem dispatch_safe {e : Env} {isRoot : Bool} (ht : Tame e.toks) :
    wp (dispatch isRoot) e (fun _ _ => True) ⟨0, true⟩ := by
  simp only [dispatch, tryStatement]
  wps
  refine ⟨Nat.zero_le _, fun _ => trivial, fun h => ?_⟩
  simp only [decide_eq_true_eq] at h
  have hpos : 0 < e.toks.length := by omega
  refine ⟨hpos, fun t ht0 => ?_⟩
  split
  · rename_i stmt
    wps
    refine ⟨fun hb => ?_, fun hb => ?_⟩
    · simp only [runBlocking]
      wps
      refine ⟨fun _ => trivial, fun _ => ⟨by omega, fun _ => trivial, fun hn => ?_⟩⟩
      show wp _ { e with cs := none } _ _
      wps
      refine ⟨by simp; omega, fun a ha => ⟨by simp; omega, fun b hb => ?_⟩⟩
      exact blkExec_safe (e := { e with cs := none }) ht (by simp; omega) ht0 ha _
    · simp only [runNb]
      wps
      refine ⟨hpos, ?_⟩
      generalize hall : decide (e.toks[0 + 1]? = some (kw .all)) = all
      have hle : 0 + 1 + (stmt == .select && all).toNat ≤ e.toks.length := by
        cases all
        · simp; omega
        · simp at hall
          have := lt_of_some hall
          cases (stmt == .select) <;> simp <;> omega
      cases hadj : (stmt == .select && all)
      · rw [hadj] at hle
        have hsel : stmt = .select → e.toks[1]? ≠ some (kw .all) := by
          rintro rfl
          have h1 : (KwStmt.select == KwStmt.select) = true := by decide
          rw [h1] at hadj
          simp at hadj
          subst hadj
          simpa using hall
        cases stmt <;> simp [KwStmt.isBlocking] at hb
        · exact hardened_map (useStmt_safe hle)
        · exact hardened_map (inspectStmt_safe hle)
        · trivial
        · refine hardened_map (insertStmt_safe ?_ hle)
          have := ht.insert ht0
          rwa [List.getLast?_eq_getElem?] at this
        · refine hardened_map (selectStmt_safe hle ?_)
          obtain ⟨k, hk, hk4⟩ := ht.select ht0 (hsel rfl)
          refine ⟨k, ?_, hk, hk4⟩
          have : k ≠ 0 := by rintro rfl; simp [ht0] at hk
          simp; omega
        · exact hardened_map (updateStmt_safe hle)
        · exact hardened_map (deleteStmt_safe hle)
        · trivial
      · simp at hadj
        obtain ⟨rfl, rfl⟩ := hadj
        simp at hall
        have hlim : LimitLit e := fun i hi t ht' => isLit_iff.2 (ht.selectAll ht0 hall i t hi ht')
        exact hardened_map (selectAllStmt_safe hle hlim)
  · trivial

/-- **C21 (the parser never crashes), in part.** For every list of tokens outside of five shapes (`Tame`),
with or without a current space and for every user, the parser and the dispatch return a statement or an
error: no token is read outside of the list, no branch marked unreachable is reached, nothing uninitialised
is used, and no loop goes on for ever. -/
theorem C21_no_crash_partial (isRoot : Bool) (e : Env) (ht : Tame e.toks) :
    (∃ q, parse isRoot e = .ok q) ∨ ∃ x, parse isRoot e = .err x := by
  have h := dispatch_safe (isRoot := isRoot) ht
  unfold wp at h
  unfold parse P.run
  split at h <;> simp_all

/-! ### The shapes that crash -/

section Witness

private def crashed {ε α : Type} : Res ε α → Bool
  | .panic => true
  | _ => false

private theorem of_crashed {ε α : Type} {r : Res ε α} (h : crashed r = true) : r = .panic := by
  cases r <;> simp [crashed] at h ⊢

private def i (s : String) : Token := .ident (ascii s)
private def st (s : KwStmt) : Token := .kw (.statement s)
private def one : Token := .lit (.uint 1)

/-- A statement is parsed: the bound of C21 leaves room for real statements. -/
example : Tame [st .insert, kw .into, i "a", tDot, i "b", tOP, one, tCP] ∧
    ∃ q, parse false { toks := [st .insert, kw .into, i "a", tDot, i "b", tOP, one, tCP] } = .ok q :=
  ⟨⟨fun _ => by decide, by simp [st], by simp [st], by simp [st], by simp [st]⟩, _, rfl⟩

/-- **C21 is violated.** `select * from m` in a session with a current space, i.e. the short form of a name
as the statement's last token: the parser reads two tokens past the end. -/
theorem C21_select_crash_violated : parse false
    { toks := [st .select, tStar, kw .from, i "m"], cs := some "s" } = .panic := of_crashed (by decide +kernel)

/-- `insert into a.b ([[`: the parser reads the token after the last `[`. -/
theorem C21_insert_crash_violated : parse false
    { toks := [st .insert, kw .into, i "a", tDot, i "b", tOP, tOS, tOS] } = .panic := of_crashed (by decide +kernel)

/-- `create model a.b(x: string, primary k`. -/
theorem C21_create_model_crash_violated : parse true
    { toks := [st .create, kw .model, i "a", tDot, i "b", tOP, i "x", tColon, i "string", tComma, kw .primary,
      i "k"] } = .panic := of_crashed (by decide +kernel)

/-- `alter model a.b`. -/
theorem C21_alter_model_crash_violated : parse true
    { toks := [st .alter, kw .model, i "a", tDot, i "b"] } = .panic := of_crashed (by decide +kernel)

/-- `alter model a.b add x { p: 1, type: string`, and the same with a type that is not there but a closing
brace. -/
theorem C21_alter_add_crash_violated :
    parse true { toks := [st .alter, kw .model, i "a", tDot, i "b", kw .add, i "x", tOB, i "p", tColon, one, tComma,
      kw .type, tColon, i "string"] } = .panic ∧
    parse true { toks := [st .alter, kw .model, i "a", tDot, i "b", kw .add, i "x", tOB, i "p", tColon, one, tComma,
      kw .type, tCB] } = .panic := ⟨of_crashed (by decide +kernel), of_crashed (by decide +kernel)⟩

/-- `select all * from a.b limit x`: a token that is not a literal is read as one (`impossible!()`). -/
theorem C21_select_all_crash_violated : parse false
    { toks := [st .select, kw .all, tStar, kw .from, i "a", tDot, i "b", kw .limit, i "x"] } = .panic := of_crashed (by decide +kernel)

/-! ### Statements that are cut off but accepted -/

/-- **C21 is violated.** `insert into a.b (1,` is the statement `insert into a.b (1)`. -/
theorem C21_cut_insert_violated :
    parse false { toks := [st .insert, kw .into, i "a", tDot, i "b", tOP, one, tComma] } =
      .ok (.rows ⟨"a", "b", .insert (.ordered [.uint .uint64 1])⟩) := by rfl

/-- `insert into a.b { x: 1,` is the statement `insert into a.b { x: 1 }`. -/
theorem C21_cut_insert_map_violated :
    parse false { toks := [st .insert, kw .into, i "a", tDot, i "b", tOB, i "x", tColon, one, tComma] } =
      .ok (.rows ⟨"a", "b", .insert (.map [("x", .uint .uint64 1)])⟩) := by rfl

/-- `delete from a.b where x = 1 and` deletes as if nothing were missing. -/
theorem C21_cut_delete_violated :
    parse false { toks := [st .delete, kw .from, i "a", tDot, i "b", kw .where, i "x", tEq, one, kw .and] } =
      .ok (.rows ⟨"a", "b", .delete [("x", ⟨1, .uint 1⟩)]⟩) := by rfl

end Witness

end Verif.Ql
