import Verif.Ql.Sound
import Verif.Ql.CompDml
/-!
The parser accepts exactly the grammar, apart from statements that are shorter than it allows.
-/
namespace Verif.Ql

namespace Gr
open Verif.Lex (Token Symbol Keyword KwStmt KwMisc Lit)

/-- The last column has neither a type nor a property: `x {}`. -/
def EmptyLast (cs : List Gns.Expanded) : Prop := ∃ c, cs.getLast? = some c ∧ c.layers = [] ∧ c.props = []

/-- Statements of the grammar that are shorter than the code allows: each parser first compares the number of
tokens with a fixed minimum (or reads a fixed number of tokens), and these have fewer. -/
inductive Short : List Token → Query → Prop
  /-- A model with one column, like `create model a.b(k: string)` (`ql/ddl/crt.rs:137`). -/
  | oneColumn {ts : List Token} {s m : String} {fs : List Gns.FieldSpec} {d : Enc.Dict} {ine : Bool} : ts.length < 12 →
      Short ts (.ddl (.createModel s m fs d ine))
  /-- A last column `x {}` (`ql/ddl/syn.rs:423`). -/
  | add {ts : List Token} {s m : String} {cs : List Gns.Expanded} : EmptyLast cs → Short ts (.ddl (.alterModel s m (.add cs)))
  | update {ts : List Token} {s m : String} {cs : List Gns.Expanded} : EmptyLast cs → Short ts (.ddl (.alterModel s m (.update cs)))
  /-- An account without options: `sysctl create user x with {}` (`ql/dcl.rs:90`). -/
  | createUser {ts : List Token} {n : String} : Short ts (.sysctl (.user (.createUser n [])))
  | alterUser {ts : List Token} {n : String} : Short ts (.sysctl (.user (.alterUser n [])))
  /-- A row without values: `insert into m ()` (`ql/dml/ins.rs:350`). -/
  | insert {ts : List Token} {s m : String} {d : Dml.InsData} : ts.length < 6 → Short ts (.rows ⟨s, m, .insert d⟩)
  /-- A query on a model of the current space without a condition: `select * from m` (`ql/ast/mod.rs:90`). -/
  | select {fs : List Token} {b : Bytes} {cols : Option (List String)} {s m : String} {w : Clauses} : Cols fs cols →
      Short (.kw (.statement .select) :: (fs ++ [kw .from, .ident b])) (.rows ⟨s, m, .select cols w⟩)

end Gr

open Verif.Lex (Token Symbol Keyword KwStmt KwMisc Lit)
open Gr

set_option linter.unusedSimpArgs false

variable {e : Env} {α : Type}

/-! ### Dispatch -/

theorem seq_ok {β : Type} {p : P α} {k : α → P β} {a : α} {s s' : St} (h : p e s = .ok (a, s')) : (p >>= k) e s = k a e s' := by
  show P.seq p k e s = _
  unfold P.seq
  rw [h]

theorem tryStatement_eq {k : KwStmt} (h : e.toks[0]? = some (.kw (.statement k))) : tryStatement e ⟨0, true⟩ = .ok (k, ⟨1, true⟩) := by
  apply eq_of_runs
  have := lt_of_some h
  simp only [tryStatement]
  rns
  refine ⟨by omega, ?_⟩
  have e1 : ¬ (0 = e.toks.length) := by omega
  simp only [e1, decide_false, Bool.false_eq_true, if_false, runs_bind, runs_fwRead]
  exact ⟨_, h, rfl, rfl⟩

theorem dispatch_eq {r : Bool} {k : KwStmt} (h : e.toks[0]? = some (.kw (.statement k))) :
    dispatch r e ⟨0, true⟩ = (if k.isBlocking then runBlocking r k else runNb k) e ⟨1, true⟩ := by
  rw [dispatch, seq_ok (tryStatement_eq h)]

theorem runBlocking_eq {r : Bool} {k : KwStmt} {a b : Token} (hr : r = true ∨ k = .sysctl) (ha : e.toks[1]? = some a)
    (hb : e.toks[2]? = some b) :
    runBlocking r k e ⟨1, true⟩ = blkExec (blkCode k a b) { e with cs := none } ⟨1 + (k != .sysctl).toNat, true⟩ := by
  have hl := lt_of_some hb
  have h1 : (!(r || k == .sysctl)) = false := by rcases hr with rfl | rfl <;> simp
  have h2 : remaining e ⟨1, true⟩ = .ok (e.toks.length - 1, ⟨1, true⟩) := by
    apply eq_of_runs; rw [runs_remaining]; exact ⟨by show 1 ≤ _; omega, rfl, rfl⟩
  have h3 : ¬ e.toks.length - 1 < 2 := by omega
  unfold runBlocking
  rw [h1]
  simp only [Bool.false_eq_true, if_false]
  rw [seq_ok h2]
  simp only [h3, if_false, withoutSpace]
  have h4 : readAt 0 { e with cs := none } ⟨1, true⟩ = .ok (a, ⟨1, true⟩) := by
    apply eq_of_runs; rw [runs_readAt]; exact ⟨_, ha, rfl, rfl⟩
  have h5 : readAt 1 { e with cs := none } ⟨1, true⟩ = .ok (b, ⟨1, true⟩) := by
    apply eq_of_runs; rw [runs_readAt]; exact ⟨_, hb, rfl, rfl⟩
  rw [seq_ok h4, seq_ok h5]
  rfl

theorem runNb_eq {k : KwStmt} (h0 : 0 < e.toks.length) : runNb k e ⟨1, true⟩ =
    nbExec (if k == .select && decide (e.toks[1]? = some (kw .all)) then 8 else stmtCode k - stmtCode .use) e
      ⟨1 + (k == .select && decide (e.toks[1]? = some (kw .all))).toNat, true⟩ := by
  have h1 : roundedEq (kw .all) e ⟨1, true⟩ = .ok (decide (e.toks[1]? = some (kw .all)), ⟨1, true⟩) := by
    apply eq_of_runs; rw [runs_roundedEq]; exact ⟨h0, rfl, rfl⟩
  unfold runNb
  rw [seq_ok h1]
  rfl

/-- The rest of a statement after its words. -/
theorem hardened_complete {p : P α} {a : α} {s : St} (h : p e s = .ok (a, ⟨e.toks.length, true⟩)) :
    hardened p e s = .ok (a, ⟨e.toks.length, true⟩) := by
  apply eq_of_runs
  simp only [hardened, runs_bind]
  refine runs_eq h ?_
  rns
  refine ⟨Nat.le_refl _, ?_⟩
  simp only [decide_true, if_true, Nat.lt_irrefl, decide_false, Bool.not_true, Bool.or_self, Bool.false_eq_true, if_false]
  exact ⟨rfl, rfl⟩

theorem finish {β : Type} {p : P α} {f : α → β} {a : α} {s : St} (h : p e s = .ok (a, ⟨e.toks.length, true⟩)) :
    (do let x ← hardened p; pure (f x)) e s = .ok (f a, ⟨e.toks.length, true⟩) := by
  rw [seq_ok (hardened_complete h)]
  rfl

theorem parse_of {r : Bool} {q : Query} {s : St} (h : dispatch r e ⟨0, true⟩ = .ok (q, s)) : parse r e = .ok q := by
  unfold parse P.run
  rw [h]

/-- A parser of a statement that cannot succeed. -/
theorem not_finish {β : Type} {p : P α} {f : α → β} {s : St} {y : β × St}
    (h : lp p e (fun a s' => s'.i = e.toks.length → f a = y.1 → False) s) :
    (do let x ← hardened p; pure (f x)) e s ≠ .ok y := by
  intro hy
  have : lp (do let x ← hardened p; pure (f x)) e (fun b _ => b = y.1 → False) s := by
    rw [lp_bind]
    exact hardened_lp h
  exact (lp_iff.1 this) _ _ hy rfl

theorem parse_inv {r : Bool} {q : Query} (h : parse r e = .ok q) : ∃ s, dispatch r e ⟨0, true⟩ = .ok (q, s) := by
  unfold parse P.run at h
  split at h
  · rename_i a s' ha
    cases h
    exact ⟨s', ha⟩
  all_goals cases h

/-! ### Statements that change the catalogue -/

/-- After `create space` and the like: the parser that is called. -/
theorem dispatch_ddl {k : KwStmt} {m : KwMisc} {us : List Token} {n : Nat} {b : Token} (ht : e.toks = .kw (.statement k) :: kw m :: b :: us)
    (hk : k = .create ∨ k = .alter ∨ k = .drop) (hn : blkCode k (kw m) b = n) :
    dispatch true e ⟨0, true⟩ = blkExec n { e with cs := none } ⟨2, true⟩ := by
  have h0 : e.toks[0]? = some (.kw (.statement k)) := by rw [ht]; rfl
  have h1 : e.toks[1]? = some (kw m) := by rw [ht]; rfl
  have h2 : e.toks[2]? = some b := by rw [ht]; rfl
  rw [dispatch_eq h0]
  have : k.isBlocking = true := by rcases hk with rfl | rfl | rfl <;> rfl
  rw [this]
  simp only [if_true]
  rw [runBlocking_eq (.inl rfl) h1 h2, hn]
  rcases hk with rfl | rfl | rfl <;> rfl

theorem At_two {t t' : Token} {ts : List Token} (h : e.toks = t :: t' :: ts) : At e 2 ts := by
  have := At_self (e := e)
  rw [h] at this
  exact (At_cons.1 (At_cons.1 this).2).2

theorem At_one {t : Token} {ts : List Token} (h : e.toks = t :: ts) : At e 1 ts := by
  have := At_self (e := e)
  rw [h] at this
  exact (At_cons.1 this).2

theorem opt_head {ws os : List Token} {t : Token} {b : Bool} {x : Bytes} {us : List Token} (h : Opt (t :: ws) os b) :
    ∃ y ys, os ++ .ident x :: us = y :: ys ∧ (isId y = true ∨ y = t) := by
  cases h with
  | yes => exact ⟨_, _, rfl, .inr rfl⟩
  | no => exact ⟨_, _, rfl, .inl rfl⟩

theorem alterFull_of {ts : List Token} {s m : String} {k : Gns.AlterKind} (h : ¬ Short ts (.ddl (.alterModel s m k))) : AlterFull k := by
  cases k with
  | remove _ => trivial
  | add cs =>
    intro c hc
    by_cases hl : c.layers = []
    · by_cases hp : c.props = []
      · exact absurd (.add ⟨c, hc, hl, hp⟩) h
      · exact .inr hp
    · exact .inl hl
  | update cs =>
    intro c hc
    by_cases hl : c.layers = []
    · by_cases hp : c.props = []
      · exact absurd (.update ⟨c, hc, hl, hp⟩) h
      · exact .inr hp
    · exact .inl hl

theorem ddl_complete {s : Gns.Stmt} (h : Ddl e.toks s) (hs : ¬ Short e.toks (.ddl s)) :
    dispatch true e ⟨0, true⟩ = .ok (.ddl s, ⟨e.toks.length, true⟩) := by
  generalize ht : e.toks = toks at h hs
  rw [← ht]
  cases h with
  | @createSpace os ws b ine d ho hw =>
    have hat : At { e with cs := none } 2 _ := At_two ht
    have hl : 2 + (os ++ .ident b :: ws).length = e.toks.length := by rw [ht]; simp; omega
    obtain ⟨y, ys, h1, h2⟩ := opt_head (x := b) (us := ws) ho
    rw [dispatch_ddl (b := y) (us := ys) (n := 2) (by rw [ht, h1]) (.inl rfl)]
    · exact finish (e := { e with cs := none }) (createSpace_complete ho hw hat hl)
    · rw [blkCode_create]
      rcases h2 with h2 | rfl <;> simp [*]
  | @createModel os ns fs ws ine sp m cols d ho hn hf hw =>
    have hat : At { e with cs := none } 2 _ := At_two ht
    have hl : 2 + (os ++ ns ++ tOP :: fs ++ ws).length = e.toks.length := by rw [ht]; simp; omega
    have h12 : 12 ≤ e.toks.length := by
      rw [ht]
      exact Nat.le_of_not_lt fun h => hs (.oneColumn h)
    obtain ⟨b, us, hns⟩ : ∃ b us, ns = .ident b :: us := by cases hn; exact ⟨_, _, rfl⟩
    obtain ⟨y, ys, h1, h2⟩ := opt_head (x := b) (us := us ++ tOP :: fs ++ ws) ho
    rw [dispatch_ddl (m := .model) (b := y) (us := ys) (n := 3) (by rw [ht, ← h1, hns]; simp) (.inl rfl)]
    · exact finish (e := { e with cs := none }) (createModel_complete ho hn hf hw hat hl (by show 2 + 10 ≤ e.toks.length; omega))
    · rw [blkCode_create]
      rcases h2 with h2 | rfl <;> simp [*]
  | @alterSpace b ts d hm =>
    have hat : At { e with cs := none } 2 _ := At_two ht
    rw [dispatch_ddl (n := 4) ht (.inr (.inl rfl))]
    · refine finish (e := { e with cs := none }) ?_
      rw [alterSpace_complete hm hat]
      rw [show 2 + (ts.length + 2) = e.toks.length by rw [ht]; simp; omega]
    · rw [blkCode_alter]
      simp [isId]
  | @alterModel ns ts sp m k hn hk =>
    have hat : At { e with cs := none } 2 _ := At_two ht
    obtain ⟨b, us, hns⟩ : ∃ b us, ns = .ident b :: us := by cases hn; exact ⟨_, _, rfl⟩
    rw [dispatch_ddl (b := .ident b) (us := us ++ ts) (n := 5) (by rw [ht, hns]; rfl) (.inr (.inl rfl))]
    · refine finish (e := { e with cs := none }) ?_
      rw [alterModel_complete hn hk (alterFull_of hs) hat]
      rw [show 2 + (ns ++ ts).length = e.toks.length by rw [ht]; simp; omega]
    · rw [blkCode_alter]
      simp [isId]
  | @dropSpace os fs b ie force ho hf =>
    have hat : At { e with cs := none } 2 _ := At_two ht
    obtain ⟨y, ys, h1, h2⟩ : ∃ y ys, os ++ fs ++ [.ident b] = y :: ys ∧ (isId y = true ∨ y = kw .if ∨ y = kw .allow) := by
      cases ho with
      | yes => exact ⟨_, _, rfl, .inr (.inl rfl)⟩
      | no =>
        cases hf with
        | yes _ => exact ⟨_, _, rfl, .inr (.inr rfl)⟩
        | no => exact ⟨_, _, rfl, .inl rfl⟩
    rw [dispatch_ddl (b := y) (us := ys) (n := 6) (by rw [ht, h1]) (.inr (.inr rfl))]
    · refine finish (e := { e with cs := none }) ?_
      rw [dropSpace_complete ho hf hat]
      rw [show 2 + (os ++ fs ++ [Token.ident b]).length = e.toks.length by rw [ht]; simp; omega]
    · rw [blkCode_drop]
      rcases h2 with h2 | rfl | rfl <;> simp [*]
  | @dropModel os fs ns ie force sp m ho hf hn =>
    have hat : At { e with cs := none } 2 _ := At_two ht
    obtain ⟨y, ys, h1, h2⟩ : ∃ y ys, os ++ fs ++ ns = y :: ys ∧ (isId y = true ∨ y = kw .if ∨ y = kw .allow) := by
      cases ho with
      | yes => exact ⟨_, _, rfl, .inr (.inl rfl)⟩
      | no =>
        cases hf with
        | yes _ => exact ⟨_, _, rfl, .inr (.inr rfl)⟩
        | no => cases hn; exact ⟨_, _, rfl, .inl rfl⟩
    have hl : 2 + (os ++ fs ++ ns).length = e.toks.length := by rw [ht]; simp; omega
    rw [dispatch_ddl (b := y) (us := ys) (n := 7) (by rw [ht, h1]) (.inr (.inr rfl))]
    · refine finish (e := { e with cs := none }) ?_
      rw [dropModel_complete ho hf hn hat hl, hl]
    · rw [blkCode_drop]
      rcases h2 with h2 | rfl | rfl <;> simp [*]

/-! ### All statements -/

theorem sys_complete {r : Bool} {ts : List Token} {c : Sysctl} (ht : e.toks = .kw (.statement .sysctl) :: ts) (h : Sys ts c)
    (hs : ¬ Short e.toks (.sysctl c)) : dispatch r e ⟨0, true⟩ = .ok (.sysctl c, ⟨e.toks.length, true⟩) := by
  have h0 : e.toks[0]? = some (.kw (.statement .sysctl)) := by rw [ht]; rfl
  obtain ⟨a, b, us, rfl⟩ : ∃ a b us, ts = a :: b :: us := by cases h <;> exact ⟨_, _, _, rfl⟩
  have h1 : e.toks[1]? = some a := by rw [ht]; rfl
  have h2 : e.toks[2]? = some b := by rw [ht]; rfl
  rw [dispatch_eq h0, if_pos (show KwStmt.sysctl.isBlocking = true by decide)]
  rw [runBlocking_eq (.inr rfl) h1 h2, blkCode_sysctl]
  have hat : At { e with cs := none } 1 _ := At_one ht
  refine finish (e := { e with cs := none }) (sysctl_complete h ?_ hat (by show 1 + _ = e.toks.length; rw [ht]; simp; omega))
  intro n
  exact ⟨fun hc => hs (hc ▸ .createUser), fun hc => hs (hc ▸ .alterUser)⟩

theorem dispatch_nb {r : Bool} {k : KwStmt} {n : Nat} {ts : List Token} (ht : e.toks = .kw (.statement k) :: ts) (hb : k.isBlocking = false)
    (hk : k ≠ .select) (hn : stmtCode k - stmtCode .use = n) : dispatch r e ⟨0, true⟩ = nbExec n e ⟨1, true⟩ := by
  have h0 : e.toks[0]? = some (.kw (.statement k)) := by rw [ht]; rfl
  have hk' : (k == .select) = false := by simpa using hk
  rw [dispatch_eq h0, hb]
  simp only [Bool.false_eq_true, if_false]
  rw [runNb_eq (lt_of_some h0), hk', ← hn]
  simp

theorem cols_ne_all {fs : List Token} {cols : Option (List String)} (h : Cols fs cols) : ∃ t us, fs = t :: us ∧ t ≠ kw .all := by
  cases h with
  | star => exact ⟨_, _, rfl, by simp⟩
  | names h =>
    obtain ⟨b, us, rfl⟩ := colNames_ident h
    exact ⟨_, _, rfl, by simp⟩

theorem dispatch_select {r : Bool} {t : Token} {ts : List Token} (ht : e.toks = .kw (.statement .select) :: t :: ts) (hn : t ≠ kw .all) :
    dispatch r e ⟨0, true⟩ = nbExec 4 e ⟨1, true⟩ := by
  have h0 : e.toks[0]? = some (.kw (.statement .select)) := by rw [ht]; rfl
  have h1 : e.toks[1]? = some t := by rw [ht]; rfl
  rw [dispatch_eq h0, if_neg (show ¬ KwStmt.select.isBlocking = true by decide)]
  rw [runNb_eq (lt_of_some h0), h1]
  simp [hn, stmtCode]

theorem dispatch_selectAll {r : Bool} {ts : List Token} (ht : e.toks = .kw (.statement .select) :: kw .all :: ts) :
    dispatch r e ⟨0, true⟩ = nbExec 8 e ⟨2, true⟩ := by
  have h0 : e.toks[0]? = some (.kw (.statement .select)) := by rw [ht]; rfl
  have h1 : e.toks[1]? = some (kw .all) := by rw [ht]; rfl
  rw [dispatch_eq h0, if_neg (show ¬ KwStmt.select.isBlocking = true by decide)]
  rw [runNb_eq (lt_of_some h0), h1]
  simp

theorem dml_complete {r : Bool} {q : RowQuery} (h : Dml e.cs (calls e) e.toks q) (hs : ¬ Short e.toks (.rows q)) :
    dispatch r e ⟨0, true⟩ = .ok (.rows q, ⟨e.toks.length, true⟩) := by
  generalize ht : e.toks = toks at h hs
  rw [← ht]
  cases h with
  | @insert ns ds s m d hn hd =>
    rw [dispatch_nb (n := 3) ht rfl (by simp) rfl]
    refine finish (insertStmt_complete hn (by simpa using hd) (At_one ht) (by rw [ht]; simp; omega) ?_)
    have : ¬ e.toks.length < 6 := fun h => hs (.insert (ht ▸ h))
    omega
  | @select fs ns ws s m cols w hc hn hw =>
    obtain ⟨t, us, hfs, hta⟩ := cols_ne_all hc
    have hat := At_one ht
    have hl : 1 + (fs ++ kw .from :: ns ++ ws).length = e.toks.length := by rw [ht]; simp; omega
    rw [dispatch_select (t := t) (ts := us ++ kw .from :: ns ++ ws) (by rw [ht, hfs]; rfl) hta]
    refine finish (selectStmt_complete hc hn hw hat hl ?_)
    obtain ⟨b, vs, hns, hnl⟩ := Name.length hn
    by_cases hws : ws = []
    · subst hws
      rcases hnl with ⟨rfl, _⟩ | hnl
      · subst hns
        refine absurd ?_ hs
        have := Short.select (s := s) (m := m) (w := w) (b := b) hc
        simpa using this
      · exact .inl (by omega)
    · exact .inr hws
  | @selectAll fs ns s m cols n hc hn =>
    rw [dispatch_selectAll ht]
    refine finish ?_
    rw [selectAllStmt_complete hc hn (At_two ht)]
    rw [show 2 + (fs.length + ns.length + 3) = e.toks.length by rw [ht]; simp; omega]
  | @update ns as ws s m l w hn ha hw =>
    rw [dispatch_nb (n := 5) ht rfl (by simp) rfl]
    exact finish (updateStmt_complete hn ha hw (At_one ht) (by rw [ht]; simp; omega))
  | @delete ns ws s m w hn hw =>
    rw [dispatch_nb (n := 6) ht rfl (by simp) rfl]
    exact finish (deleteStmt_complete hn hw (At_one ht) (by rw [ht]; simp; omega))

theorem parse_complete {r : Bool} {q : Query} (h : Stmt e.cs (calls e) e.toks q) (hr : r = true ∨ ∀ s, q ≠ .ddl s)
    (hs : ¬ Short e.toks q) : parse r e = .ok q := by
  refine parse_of (s := ⟨e.toks.length, true⟩) ?_
  generalize ht : e.toks = toks at h hs
  rw [← ht]
  cases h with
  | @ddl _ s h =>
    have hr : r = true := hr.resolve_right fun h => h s rfl
    subst hr ht
    exact ddl_complete h hs
  | sysctl h => exact sys_complete ht h (by rw [ht]; exact hs)
  | use h =>
    rw [dispatch_nb (n := 0) ht rfl (by simp) rfl]
    exact finish (useStmt_complete h (At_one ht) (by rw [ht]; simp; omega))
  | inspect h =>
    rw [dispatch_nb (n := 1) ht rfl (by simp) rfl]
    exact finish (inspectStmt_complete h (At_one ht) (by rw [ht]; simp; omega))
  | rows h =>
    subst ht
    exact dml_complete h hs

/-! ### What is too short is not accepted -/

/-- A parser that begins by asking for a number of tokens. -/
theorem lp_min {k : Nat} {x : QlErr} {p : P α} {s : St} :
    lp (do let n ← remaining; if n < k then fail x else p) e (fun _ _ => s.i + k ≤ e.toks.length) s := by
  rw [lp_bind, lp_remaining]
  intro hi
  rw [lp_ite]
  refine ⟨fun _ => trivial, fun h => ?_⟩
  have h : s.i + k ≤ e.toks.length := by omega
  exact lp_iff.2 fun _ _ _ => h

theorem expandedField_min {s : St} : lp expandedField e (fun _ _ => s.i + 6 ≤ e.toks.length) s := lp_min

theorem lp_and {p : P α} {Q R : α → St → Prop} {s : St} (h : lp p e Q s) (h' : lp p e R s) :
    lp p e (fun a s' => Q a s' ∧ R a s') s :=
  lp_iff.2 fun a s' hp => ⟨lp_iff.1 h a s' hp, lp_iff.1 h' a s' hp⟩

/-- The last column was read when there were enough tokens. -/
def LastRead (e : Env) (cs : List Gns.Expanded) (s' : St) : Prop :=
  ∃ j us c, cs.getLast? = some c ∧ Column us c ∧ j + 6 ≤ e.toks.length ∧ s'.i ≤ j + us.length + 1

theorem LastRead.full {cs : List Gns.Expanded} {s' : St} (h : LastRead e cs s') (hi : s'.i = e.toks.length) : ¬ EmptyLast cs := by
  rintro ⟨c, h1, h2, h3⟩
  obtain ⟨j, us, c', h4, h5, h6, h7⟩ := h
  rw [h1] at h4
  cases h4
  rcases Column.long h5 with ⟨b, rfl, _⟩ | ⟨_, h | h⟩
  · simp at h7; omega
  · exact h h2
  · exact h h3

theorem expandedLoop_last : ∀ (n : Nat) (stop : Bool) (cols : List Gns.Expanded) (s : St),
    lp (expandedLoop n stop cols) e (fun r s' => (r = cols ∧ s'.i = s.i ∧ (stop = true)) ∨ LastRead e r s') s
  | 0, _, _, _ => trivial
  | n + 1, stop, cols, s => by
    simp only [expandedLoop]
    lps
    intro hi
    refine ⟨fun hgo t ht => ⟨fun _ => ?_, fun _ => trivial⟩, fun hgo => ⟨fun hok => ?_, fun _ => trivial⟩⟩
    · refine lp_mono (lp_and expandedField_sound expandedField_min) ?_
      rintro c s1 ⟨⟨_, hf1, ts, h1, h2, h3⟩, h6⟩ _ _
      refine lp_mono (expandedLoop_last n _ _ _) ?_
      rintro r s' (⟨rfl, h4, h5⟩ | h)
      · refine .inr ⟨s.i, ts, c, by simp, h3, h6, ?_⟩
        simp only at h4
        have : ∀ b : Bool, b.toNat ≤ 1 := by decide
        have := this (s1.f && (decide (e.toks[s1.i]? = some tComma) || decide (e.toks[s1.i]? = some tCP)))
        omega
      · exact .inr h
    · simp only [Bool.and_eq_true] at hok
      exact .inl ⟨trivial, trivial, hok.2⟩

theorem parseMultiple_last {s : St} : lp parseMultiple e (fun r s' => LastRead e r s') s := by
  simp only [parseMultiple, lp_bind, lp_remaining, lp_ite, lp_fail, lp_read]
  refine fun _ => ⟨fun _ => trivial, fun _ t ht => ?_⟩
  split
  · lps
    refine lp_mono (lp_and expandedField_sound expandedField_min) ?_
    rintro c s1 ⟨⟨_, _, ts, h1, h2, h3⟩, h6⟩
    exact ⟨s.i, ts, c, rfl, h3, h6, by omega⟩
  · lps
    refine lp_mono (expandedLoop_last _ _ _ _) ?_
    rintro r s' (⟨_, _, h⟩ | h)
    · cases h
    · exact h
  · trivial

theorem alterModel_last {s : St} : lp alterModel e (fun r s' => s'.i = e.toks.length → ∀ ts, ¬ Short ts (.ddl r)) s := by
  simp only [alterModel, lp_bind, lp_remaining, lp_ite, lp_fail, lp_pure, lp_hasIdentRounded, lp_fwRead]
  refine fun hi => ⟨fun _ => ⟨fun _ => trivial, fun h => absurd rfl h⟩, fun h2 _ => ⟨fun _ => trivial, fun _ => ?_⟩⟩
  refine lp_iff.2 fun m s1 _ => ?_
  intro t ht
  split
  · lps
    refine lp_mono parseMultiple_last ?_
    intro cs s2 h hl ts hs
    cases hs with
    | add h' => exact h.full hl h'
  · lps
    refine lp_mono alterRemove_sound ?_
    rintro k s2 ⟨us, a1, a2, ns, rfl, a3⟩ hl ts hs
    cases hs
  · lps
    refine lp_mono parseMultiple_last ?_
    intro cs s2 h hl ts hs
    cases hs with
    | update h' => exact h.full hl h'
  · trivial

theorem userMeta_min {s : St} : lp userMeta e (fun _ _ => s.i + 7 ≤ e.toks.length) s := lp_min

theorem sysctl_min {s : St} : lp sysctl e (fun c _ => ∀ n d, c = .user (.createUser n d) ∨ c = .user (.alterUser n d) →
    s.i + 9 ≤ e.toks.length) s := by
  simp only [sysctl]
  lps
  refine fun _ => ⟨fun _ => trivial, fun _ a ha b hb => ⟨fun _ => trivial, fun hc => ⟨fun h => ?_, fun h1 => ⟨fun h => ?_,
    fun h2 => ⟨fun h => ?_, fun h3 => ?_⟩⟩⟩⟩⟩
  · exact lp_mono userMeta_min fun _ _ h _ _ _ => by simp only at h; omega
  · refine lp_iff.2 fun _ _ _ n d h => ?_
    rcases h with h | h <;> cases h
  · exact lp_mono userMeta_min fun _ _ h _ _ _ => by simp only at h; omega
  · rintro n d (h | h) <;> cases h

theorem selectStmt_short {fs : List Token} {b : Bytes} {cols : Option (List String)} {i : Nat} (hc : Cols fs cols)
    (hat : At e i (fs ++ [kw .from, .ident b])) (hi : i + (fs.length + 2) = e.toks.length) :
    lp selectStmt e (fun _ _ => False) ⟨i, true⟩ := by
  have a0 := At_append.1 hat
  have a1 := At_cons.1 a0.2
  have h1 := columns_complete hc (At_append.2 ⟨a0.1, At_cons.2 ⟨a1.1, At_nil⟩⟩)
  simp only [selectStmt]
  lps
  refine fun _ => ⟨fun _ => trivial, fun _ => ?_⟩
  refine lp_iff.2 fun c s1 hp => ?_
  rw [h1] at hp
  cases hp
  refine fun _ => ⟨fun _ => trivial, fun _ _ => ?_⟩
  simp only [entityBuffered]
  lps
  intro _ _ t ht
  have : e.toks[i + fs.length + 1 + 1]? = none := none_of_le (by omega)
  rw [this] at ht
  cases ht

theorem map_empty {ts : List Token} (h : Map ts []) : ts = [tOB, tCB] := by
  cases h with
  | mk h _ =>
    generalize hd : ([] : Enc.Dict) = d at h
    cases h with
    | comma h =>
      cases h with
      | nil => rfl
      | cons => simp at hd
    | last => simp at hd

theorem sys_short {r : Bool} {a b : Token} {ts : List Token} {c : Sysctl} {s' : St} (ht : e.toks = .kw (.statement .sysctl) :: a :: b :: ts)
    (hc : ∃ n d, c = .user (.createUser n d) ∨ c = .user (.alterUser n d)) (hl : e.toks.length < 10) :
    dispatch r e ⟨0, true⟩ ≠ .ok (.sysctl c, s') := by
  have h0 : e.toks[0]? = some (.kw (.statement .sysctl)) := by rw [ht]; rfl
  have h1 : e.toks[1]? = some a := by rw [ht]; rfl
  have h2 : e.toks[2]? = some b := by rw [ht]; rfl
  rw [dispatch_eq h0, if_pos (show KwStmt.sysctl.isBlocking = true by decide), runBlocking_eq (.inr rfl) h1 h2, blkCode_sysctl]
  refine not_finish (e := { e with cs := none }) (lp_mono sysctl_min fun c' s' h _ hq => ?_)
  cases hq
  obtain ⟨n, d, hc⟩ := hc
  have : 1 + 9 ≤ e.toks.length := h n d hc
  omega

/-- An accepted query is long enough. -/
theorem parse_long {r : Bool} {q : Query} (h : parse r e = .ok q) : ¬ Short e.toks q := by
  obtain ⟨hst, hr⟩ := parse_sound h
  obtain ⟨s', hd⟩ := parse_inv h
  intro hs
  generalize ht : e.toks = toks at hst hs
  cases hs with
  | oneColumn hlen =>
    obtain rfl : r = true := hr.resolve_right fun h => h _ rfl
    cases hst with
    | ddl hst =>
      cases hst with
      | @createModel os ns fs ws ine sp m cols d ho hn hf hw =>
        obtain ⟨b, us, hns⟩ : ∃ b us, ns = .ident b :: us := by cases hn; exact ⟨_, _, rfl⟩
        obtain ⟨y, ys, h1, h2⟩ := opt_head (x := b) (us := us ++ tOP :: fs ++ ws) ho
        rw [dispatch_ddl (m := .model) (b := y) (us := ys) (n := 3) (by rw [ht, ← h1, hns]; simp) (.inl rfl)] at hd
        · refine not_finish (e := { e with cs := none }) ?_ hd
          simp only [createModel, lp_bind, lp_remaining, lp_ite, lp_fail]
          refine fun hi => ⟨fun _ => trivial, fun h => ?_⟩
          exact absurd (show e.toks.length - 2 < 10 by rw [ht]; omega) h
        · rw [blkCode_create]
          rcases h2 with h2 | rfl <;> simp [*]
  | add hl =>
    obtain rfl : r = true := hr.resolve_right fun h => h _ rfl
    cases hst with
    | ddl hst =>
      cases hst with
      | @alterModel ns ts sp m k hn hk =>
        obtain ⟨b, us, hns⟩ : ∃ b us, ns = .ident b :: us := by cases hn; exact ⟨_, _, rfl⟩
        rw [dispatch_ddl (b := .ident b) (us := us ++ ts) (n := 5) (by rw [ht, hns]; rfl) (.inr (.inl rfl))] at hd
        · refine not_finish (e := { e with cs := none }) (lp_mono alterModel_last fun a s' h hi hq => ?_) hd
          cases hq
          exact h hi [] (.add hl)
        · rw [blkCode_alter]
          simp [isId]
  | update hl =>
    obtain rfl : r = true := hr.resolve_right fun h => h _ rfl
    cases hst with
    | ddl hst =>
      cases hst with
      | @alterModel ns ts sp m k hn hk =>
        obtain ⟨b, us, hns⟩ : ∃ b us, ns = .ident b :: us := by cases hn; exact ⟨_, _, rfl⟩
        rw [dispatch_ddl (b := .ident b) (us := us ++ ts) (n := 5) (by rw [ht, hns]; rfl) (.inr (.inl rfl))] at hd
        · refine not_finish (e := { e with cs := none }) (lp_mono alterModel_last fun a s' h hi hq => ?_) hd
          cases hq
          exact h hi [] (.update hl)
        · rw [blkCode_alter]
          simp [isId]
  | createUser =>
    cases hst with
    | sysctl hst =>
      generalize hd0 : ([] : Enc.Dict) = d at hst
      cases hst with
      | @createUser u b ts d hu hm =>
        subst hd0
        refine sys_short (c := .user (.createUser (nm b) [])) ht ⟨_, _, .inl rfl⟩ ?_ hd
        rw [ht]
        simp [map_empty hm]
  | alterUser =>
    cases hst with
    | sysctl hst =>
      generalize hd0 : ([] : Enc.Dict) = d at hst
      cases hst with
      | @alterUser u b ts d hu hm =>
        subst hd0
        refine sys_short (c := .user (.alterUser (nm b) [])) ht ⟨_, _, .inr rfl⟩ ?_ hd
        rw [ht]
        simp [map_empty hm]
  | insert hlen =>
    cases hst with
    | rows hst =>
      cases hst with
      | @insert ns ds s m d hn hdat =>
        rw [dispatch_nb (n := 3) ht rfl (by simp) rfl] at hd
        refine not_finish ?_ hd
        simp only [insertStmt, lp_bind, lp_remaining, lp_ite, lp_fail]
        refine fun hi => ⟨fun _ => trivial, fun h => ?_⟩
        exact absurd (show e.toks.length - 1 < 5 by rw [ht]; omega) h
  | @select fs b cols s m w hc =>
    obtain ⟨t, us, hfs, hta⟩ := cols_ne_all hc
    rw [dispatch_select (t := t) (ts := us ++ [kw .from, .ident b]) (by rw [ht, hfs]; rfl) hta] at hd
    exact not_finish (lp_mono (selectStmt_short hc (At_one ht) (by rw [ht]; simp; omega)) fun _ _ h => h.elim) hd

/-- The parser accepts exactly the grammar, except statements that are too short for it; statements on spaces and
models only from the root account. -/
theorem parse_iff {r : Bool} {q : Query} : parse r e = .ok q ↔
    Stmt e.cs (calls e) e.toks q ∧ ¬ Short e.toks q ∧ (r = true ∨ ∀ s, q ≠ .ddl s) :=
  ⟨fun h => ⟨(parse_sound h).1, parse_long h, (parse_sound h).2⟩, fun h => parse_complete h.1 h.2.2 h.2.1⟩

end Verif.Ql
