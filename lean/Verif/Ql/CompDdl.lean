import Verif.Ql.CompDict
import Verif.Ql.SoundDdl
/-!
Statements on spaces, models and users of the grammar are accepted by the parser, unless they are shorter
than it allows.
-/
namespace Verif.Ql
open Verif.Lex (Token Symbol Keyword KwStmt KwMisc Lit)
open Verif.Enc (DVal Dict)
open Gr

set_option linter.unusedSimpArgs false

variable {e : Env}

@[simp] theorem tok_beq {a b : Token} : (a == b) = decide (a = b) := rfl

theorem none_of_le {i : Nat} (h : e.toks.length ≤ i) : e.toks[i]? = none := List.getElem?_eq_none h

/-! ### Names -/

theorem runs_entityFromTokens {i : Nat} {a b : Bytes} {Q : String × String → St → Prop}
    (h0 : e.toks[i]? = some (.ident a)) (h2 : e.toks[i + 2]? = some (.ident b)) (h : Q (nm a, nm b) ⟨i + 3, true⟩) :
    runs entityFromTokens e Q ⟨i, true⟩ := by
  simp only [entityFromTokens]
  rns
  exact ⟨_, h0, _, rfl, _, h2, _, rfl, h⟩

theorem runs_entityFromCs {i : Nat} {b : Bytes} {s : String} {Q : String × String → St → Prop}
    (h0 : e.toks[i]? = some (.ident b)) (hs : e.cs = some s) (h : Q (s, nm b) ⟨i + 1, true⟩) :
    runs entityFromCs e Q ⟨i, true⟩ := by
  simp only [entityFromCs]
  rns
  exact ⟨_, h0, _, rfl, _, hs, h⟩

theorem entityBuffered_complete {i : Nat} {ts : List Token} {s m : String} (h : Name e.cs ts s m) (hat : At e i ts)
    (hl : i + 3 ≤ e.toks.length) (hnx : e.toks[i + ts.length]? ≠ some tDot) :
    entityBuffered e ⟨i, true⟩ = .ok (some (s, m), ⟨i + ts.length, true⟩) := by
  apply eq_of_runs
  simp only [entityBuffered]
  rns
  cases h with
  | full h =>
    cases h with
    | mk a b =>
      simp only [At_cons, At_nil, and_true] at hat
      obtain ⟨h0, h1, h2⟩ := hat
      refine ⟨_, h0, _, h1, _, h2, ?_⟩
      simp only [isId, tok_beq, decide_true, Bool.and_self, if_true, runs_bind]
      exact runs_entityFromTokens h0 h2 ⟨rfl, rfl⟩
  | short b hs =>
    simp only [At_cons, At_nil, and_true] at hat
    have h1 : i + 1 < e.toks.length := by omega
    have h2 : i + 2 < e.toks.length := by omega
    refine ⟨_, hat, _, List.getElem?_eq_getElem h1, _, List.getElem?_eq_getElem h2, ?_⟩
    have h3 : e.toks[i + 1] ≠ tDot := by
      intro h
      apply hnx
      simp only [List.length_cons, List.length_nil]
      rw [List.getElem?_eq_getElem h1, h]
    simp only [tok_beq, h3, decide_false, Bool.and_false, Bool.false_and, hs, Option.isSome_some, isId,
      Bool.and_self, Bool.false_eq_true, if_false, if_true, runs_bind]
    exact runs_entityFromCs hat hs ⟨rfl, rfl⟩

theorem entityRef_complete {i : Nat} {ts : List Token} {s m : String} (h : Name e.cs ts s m) (hat : At e i ts)
    (hnx : e.toks[i + ts.length]? ≠ some tDot) :
    entityRef e ⟨i, true⟩ = .ok ((s, m), ⟨i + ts.length, true⟩) := by
  apply eq_of_runs
  simp only [entityRef]
  rns
  have hlt : i < e.toks.length := by
    cases h with
    | full h => cases h; exact lt_of_some (At_cons.1 hat).1
    | short b hs => exact lt_of_some (At_cons.1 hat).1
  have g : ∀ k, ∃ t, e.toks[min (e.toks.length - 1) (i + k)]? = some t := fun k => ⟨_, List.getElem?_eq_getElem (by omega)⟩
  obtain ⟨a, ha⟩ := g 0
  obtain ⟨b, hb⟩ := g 1
  obtain ⟨c, hc⟩ := g 2
  refine ⟨a, ha, b, hb, c, hc, ?_⟩
  obtain ⟨r1, r2⟩ := name_rounded hlt ha hb hc
  cases h with
  | full h =>
    cases h with
    | mk x y =>
      simp only [At_cons, At_nil, and_true] at hat
      obtain ⟨h0, h1, h2⟩ := hat
      have hl := lt_of_some h2
      have m1 : min (e.toks.length - 1) (i + 1) = i + 1 := by omega
      have m2 : min (e.toks.length - 1) (i + 2) = i + 1 + 1 := by omega
      rw [m1, h1] at hb
      rw [m2, h2] at hc
      rw [h0] at r1
      cases r1; cases hb; cases hc
      simp only [isId, tok_beq, decide_true, Bool.and_self, if_true]
      exact runs_entityFromTokens h0 h2 ⟨rfl, rfl⟩
  | short x hs =>
    simp only [At_cons, At_nil, and_true] at hat
    have h3 : (isId a && b == tDot && isId c) = false := by
      rw [Bool.eq_false_iff]
      exact fun h => hnx (r2 h).1
    rw [hat] at r1
    cases r1
    rw [h3]
    simp only [Bool.false_eq_true, if_false, isId, hs, Option.isSome_some, Bool.and_self, if_true]
    exact runs_entityFromCs hat hs ⟨rfl, rfl⟩

/-! ### Optional parts -/

theorem ineAt_opt {i : Nat} {os us : List Token} {b : Bool} {x : Bytes} (h : Opt ifNotExists os b) (hat : At e i (os ++ .ident x :: us)) :
    ineAt e i = b ∧ os.length = b.toNat * 3 := by
  cases h with
  | yes => exact ⟨ineAt_iff.2 (At_append.1 hat).1, rfl⟩
  | no =>
    have : e.toks[i]? = some (.ident x) := (At_cons.1 hat).1
    simp [ineAt, this]

theorem With_none {i : Nat} {ws : List Token} {d : Dict} (h : With ws d) (hat : At e i ws) (hi : i + ws.length = e.toks.length) :
    (ws = [] ∧ d = [] ∧ i = e.toks.length ∧ e.toks[i]? = none) ∨
    (∃ ts, ws = kw .with :: ts ∧ Map ts d ∧ e.toks[i]? = some (kw .with) ∧ At e (i + 1) ts) := by
  cases h with
  | no => exact .inl ⟨rfl, rfl, by simpa using hi, none_of_le (by simpa using Nat.le_of_eq hi.symm)⟩
  | yes h => exact .inr ⟨_, rfl, h, (At_cons.1 hat).1, (At_cons.1 hat).2⟩

/-! ### CREATE -/

theorem createSpace_complete {i : Nat} {os ws : List Token} {b : Bytes} {ine : Bool} {d : Dict} (ho : Opt ifNotExists os ine)
    (hw : With ws d) (hat : At e i (os ++ .ident b :: ws)) (hi : i + (os ++ .ident b :: ws).length = e.toks.length) :
    createSpace e ⟨i, true⟩ = .ok (.createSpace (nm b) d ine, ⟨e.toks.length, true⟩) := by
  apply eq_of_runs
  simp only [createSpace]
  obtain ⟨h1, h2⟩ := ineAt_opt ho hat
  have a0 := At_append.1 hat
  have a1 := At_cons.1 a0.2
  have hlt := lt_of_some a1.1
  simp only [List.length_append, List.length_cons] at hi
  simp only [runs_bind, runs_remaining]
  have e1 : ¬ e.toks.length - i < 1 := by omega
  have e2 : (i + os.length = e.toks.length) = False := by simp; omega
  refine ⟨by omega, ?_⟩
  simp only [e1, if_false, runs_bind, runs_sigIfNotExists, h1]
  rns
  rw [← h2]
  simp only [e2, decide_false, Bool.false_eq_true, if_false]
  refine ⟨⟨by omega, by omega⟩, by omega, ?_⟩
  rns
  refine ⟨_, a1.1, by omega, by omega, ?_⟩
  rcases With_none hw a1.2 (by omega) with ⟨rfl, rfl, h4, h5⟩ | ⟨ts, rfl, h4, h5, h6⟩
  · have h4' : decide (i + os.length + 1 = e.toks.length) = true := by simpa using h4
    simp only [h5, isId, h4', decide_false, Bool.or_true, Bool.and_self, Bool.false_and, if_true,
      Bool.false_eq_true, if_false, reduceCtorEq, Bool.toNat_false, Nat.add_zero]
    simp only [if_true, runs_bind, runs_uckIdent, runs_pure]
    simp only [runs_okay, if_true, runs_bind, runs_uckIdent, runs_pure]
    exact ⟨_, rfl, rfl, by simpa using h4⟩
  · simp only [h5, isId, decide_true, Bool.true_or, Bool.and_self, if_true, Bool.toNat_true, runs_bind]
    refine runs_eq (rfoldDict_complete h4 h6) ?_
    rns
    simp only [if_true]
    rns
    simp only [List.length_cons] at hi
    exact ⟨_, rfl, rfl, by simp; omega⟩

theorem fieldSpec_complete {i : Nat} {ts : List Token} {f : Gns.FieldSpec} (h : Gr.Field ts f) (hat : At e i ts)
    (hnx : e.toks[i + ts.length]? ≠ some tOB) :
    fieldSpec e ⟨i, true⟩ = .ok (f, ⟨i + ts.length, true⟩) := by
  apply eq_of_runs
  simp only [fieldSpec]
  rns
  cases h with
  | @plain b ts ls h =>
    have a0 := At_cons.1 hat
    have a1 := At_cons.1 a0.2
    have hl := lt_of_some a1.1
    have e1 : ¬ e.toks.length - i < 2 := by omega
    refine ⟨by omega, ?_⟩
    simp only [e1, if_false]
    rns
    simp only [a0.1, a1.1, Bool.toNat_false, Nat.add_zero, Option.some.injEq, reduceCtorEq, decide_false, exists_eq_left',
      Bool.and_false, Bool.not_false, Bool.and_true, runs_bind]
    refine ⟨by omega, by omega, ?_⟩
    refine runs_eq (rfoldLayers_complete h a1.2 (by omega) ?_) ?_
    · simpa [Nat.add_comm, Nat.add_left_comm, Nat.add_assoc] using hnx
    · rns
      simp only [if_true]
      rns
      simp; omega
  | @null b ts ls h =>
    have a0 := At_cons.1 hat
    have a1 := At_cons.1 a0.2
    have a2 := At_cons.1 a1.2
    have hl := lt_of_some a2.1
    have e1 : ¬ e.toks.length - i < 2 := by omega
    refine ⟨by omega, ?_⟩
    simp only [e1, if_false]
    rns
    simp only [a0.1, a1.1, a2.1, Bool.toNat_false, Bool.toNat_true, Nat.add_zero, Option.some.injEq, Token.kw.injEq, Keyword.misc.injEq, reduceCtorEq, decide_false, decide_true, exists_eq_left',
      Bool.and_false, Bool.and_true, Bool.not_false, runs_bind]
    refine ⟨by omega, by omega, ?_⟩
    refine runs_eq (rfoldLayers_complete h a2.2 (by omega) ?_) ?_
    · simpa [Nat.add_comm, Nat.add_left_comm, Nat.add_assoc] using hnx
    · rns
      simp only [if_true]
      rns
      simp; omega
  | @primary b ts ls h =>
    have a0 := At_cons.1 hat
    have a1 := At_cons.1 a0.2
    have a2 := At_cons.1 a1.2
    have hl := lt_of_some a2.1
    have e1 : ¬ e.toks.length - i < 2 := by omega
    refine ⟨by omega, ?_⟩
    simp only [e1, if_false]
    rns
    simp only [a0.1, a1.1, a2.1, Bool.toNat_false, Bool.toNat_true, Nat.add_zero, Option.some.injEq, Token.kw.injEq, Keyword.misc.injEq, reduceCtorEq, decide_false, decide_true, exists_eq_left',
      Bool.and_false, Bool.and_true, Bool.not_false, runs_bind]
    refine ⟨by omega, by omega, ?_⟩
    refine runs_eq (rfoldLayers_complete h a2.2 (by omega) ?_) ?_
    · simpa [Nat.add_comm, Nat.add_left_comm, Nat.add_assoc] using hnx
    · rns
      simp only [if_true]
      rns
      simp; omega

theorem fieldLoop_complete : ∀ (n : Nat) (fs fs' : List Gns.FieldSpec) (i : Nat) (ts : List Token),
    Fields ts fs' → At e i ts → e.toks.length < i + n →
    fieldLoop n false fs e ⟨i, true⟩ = .ok (fs ++ fs', ⟨i + ts.length, true⟩)
  | 0, _, _, i, ts, h, hat, hn => by
    have : ∃ t us, ts = t :: us := by
      cases h with
      | last h => cases h <;> exact ⟨_, _, rfl⟩
      | more h _ => cases h <;> exact ⟨_, _, rfl⟩
    obtain ⟨t, us, rfl⟩ := this
    have := lt_of_some (At_cons.1 hat).1
    omega
  | n + 1, fs, fs', i, ts, h, hat, hn => by
    apply eq_of_runs
    rw [fieldLoop]
    have hlt : i < e.toks.length := by
      have : ∃ t us, ts = t :: us := by
        cases h with
        | last h => cases h <;> exact ⟨_, _, rfl⟩
        | more h _ => cases h <;> exact ⟨_, _, rfl⟩
      obtain ⟨t, us, rfl⟩ := this
      exact lt_of_some (At_cons.1 hat).1
    rns
    refine ⟨by omega, ?_⟩
    simp only [hlt, decide_true, Bool.and_self, Bool.not_false, if_true, runs_bind]
    cases h with
    | @last ts f h =>
      have a0 := At_append.1 hat
      have a1 := At_cons.1 a0.2
      have hl := lt_of_some a1.1
      refine runs_eq (fieldSpec_complete h a0.1 (by simp [a1.1])) ?_
      rns
      simp only [a1.1, decide_true, Bool.true_or, Bool.and_self, Bool.toNat_true]
      refine ⟨by omega, by omega, ?_⟩
      cases n with
      | zero => omega
      | succ n =>
        rw [fieldLoop]
        rns
        refine ⟨by omega, ?_⟩
        simp only [Bool.not_true, Bool.and_false, Bool.false_eq_true, if_false]
        rns
        exact ⟨by simp, by simp; omega⟩
    | @more ts us f fs'' h h' =>
      have a0 := At_append.1 hat
      have a1 := At_cons.1 a0.2
      have hl := lt_of_some a1.1
      refine runs_eq (fieldSpec_complete h a0.1 (by simp [a1.1])) ?_
      rns
      simp only [a1.1, Option.some.injEq, reduceCtorEq, Token.sym.injEq, decide_false, decide_true, Bool.or_true, Bool.and_self, Bool.toNat_true]
      refine ⟨by omega, by omega, ?_⟩
      refine runs_eq (fieldLoop_complete n (fs ++ [f]) fs'' _ us h' a1.2 (by omega)) ⟨by simp, by simp; omega⟩

theorem createModel_complete {i : Nat} {os ns fs ws : List Token} {ine : Bool} {s m : String} {cols : List Gns.FieldSpec} {d : Dict}
    (ho : Opt ifNotExists os ine) (hn : Full ns s m) (hf : Fields fs cols) (hw : With ws d)
    (hat : At e i (os ++ ns ++ tOP :: fs ++ ws)) (hi : i + (os ++ ns ++ tOP :: fs ++ ws).length = e.toks.length)
    (hlen : i + 10 ≤ e.toks.length) :
    createModel e ⟨i, true⟩ = .ok (.createModel s m cols d ine, ⟨e.toks.length, true⟩) := by
  apply eq_of_runs
  simp only [createModel]
  obtain ⟨h1, h2⟩ : ineAt e i = ine ∧ os.length = ine.toNat * 3 := by
    cases hn with
    | mk a b => exact ineAt_opt ho (us := tDot :: .ident b :: (tOP :: fs ++ ws)) (by simpa using hat)
  simp only [List.append_assoc, List.cons_append] at hat hi
  have a0 := At_append.1 hat
  have a1 := At_append.1 a0.2
  have a2 := At_cons.1 a1.2
  have a3 := At_append.1 a2.2
  have hl := lt_of_some a2.1
  simp only [List.length_append, List.length_cons] at hi
  simp only [runs_bind, runs_remaining]
  have e1 : ¬ e.toks.length - i < 10 := by omega
  refine ⟨by omega, ?_⟩
  simp only [e1, if_false, runs_bind, runs_sigIfNotExists, h1]
  rns
  rw [← h2]
  refine ⟨⟨by omega, by omega⟩, ?_⟩
  refine runs_eq (entityBuffered_complete (.full hn) a1.1 (by cases hn; simp at hl; omega) (by simp [a2.1])) ?_
  simp only [a2.1, decide_true, Bool.and_self]
  refine ⟨hl, ?_⟩
  refine runs_eq (fieldLoop_complete _ [] cols _ fs hf a3.1 (by omega)) ?_
  refine ⟨by omega, ?_⟩
  rcases With_none hw a3.2 (by omega) with ⟨rfl, rfl, h4, h5⟩ | ⟨ts, rfl, h4, h5, h6⟩
  · simp only [h5, reduceCtorEq, decide_false, Bool.false_eq_true, if_false, if_true]
    rns
    simp only [if_true]
    rns
    exact ⟨_, rfl, by simp, by simp; omega⟩
  · simp only [h5, decide_true, if_true]
    rns
    refine runs_eq (rfoldDict_complete h4 h6) ?_
    simp only [if_true]
    rns
    simp only [List.length_cons] at hi
    exact ⟨_, rfl, by simp, by simp; omega⟩

/-! ### ALTER -/

theorem alterSpace_complete {i : Nat} {b : Bytes} {ts : List Token} {d : Dict} (h : Map ts d)
    (hat : At e i (.ident b :: kw .with :: ts)) :
    alterSpace e ⟨i, true⟩ = .ok (.alterSpace (nm b) d, ⟨i + (ts.length + 2), true⟩) := by
  apply eq_of_runs
  simp only [alterSpace]
  cases h with
  | @mk ts _ hb hd =>
    have a0 := At_cons.1 hat
    have a1 := At_cons.1 a0.2
    have a2 := At_cons.1 a1.2
    have hl := lt_of_some a2.1
    have hne : ∃ t us, ts = t :: us := by
      cases hb with
      | comma h => cases h <;> exact ⟨_, _, rfl⟩
      | last h _ => cases h <;> exact ⟨_, _, rfl⟩
    have hl' : i + 3 < e.toks.length := by
      obtain ⟨t, us, rfl⟩ := hne
      exact lt_of_some (At_cons.1 a2.2).1
    rns
    have e1 : ¬ e.toks.length - i ≤ 3 := by omega
    refine ⟨by omega, ?_⟩
    simp only [e1, if_false]
    rns
    simp only [a0.1, a1.1, a2.1, Option.some.injEq, exists_eq_left', isId, decide_true, Bool.and_self]
    refine ⟨by omega, by omega, ?_⟩
    simp only [Bool.not_true, Bool.false_eq_true, if_false]
    rns
    refine ⟨_, rfl, ?_⟩
    simp only [rfoldDict]
    rns
    refine runs_eq (rfold_body hb (by simpa using hd) a2.2 (by omega) (by omega)) ?_
    simp only [if_true]
    rns
    exact ⟨by simp, by simp; omega⟩

theorem removeLoop_complete : ∀ (n : Nat) (cols ns : List String) (i : Nat) (ts : List Token),
    NameList ts ns → At e i ts → e.toks.length < i + n →
    removeLoop n false cols e ⟨i, true⟩ = .ok (cols ++ ns, ⟨i + ts.length, true⟩)
  | 0, _, _, i, ts, h, hat, hn => by
    have := (At.le (e := e) hat)
    cases h <;> exact absurd (lt_of_some (At_cons.1 hat).1) (by omega)
  | n + 1, cols, ns, i, ts, h, hat, hn => by
    apply eq_of_runs
    rw [removeLoop]
    cases h with
    | last b =>
      have a0 := At_cons.1 hat
      have a1 := At_cons.1 a0.2
      have hl := lt_of_some a1.1
      rns
      have e0 : i < e.toks.length := by omega
      refine ⟨by omega, ?_⟩
      simp only [e0, decide_true, Bool.and_self, Bool.not_false, if_true, runs_bind, runs_fwRead]
      refine ⟨_, a0.1, ?_⟩
      rns
      simp only [a1.1, Option.some.injEq, Token.sym.injEq, reduceCtorEq, decide_true, decide_false, Bool.or_true, Bool.and_self, Bool.toNat_true]
      refine ⟨by omega, by omega, ?_⟩
      cases n with
      | zero => omega
      | succ n =>
        rw [removeLoop]
        rns
        refine ⟨by omega, ?_⟩
        simp only [Bool.not_true, Bool.and_false, Bool.false_eq_true, if_false]
        rns
        simp only [Bool.and_self, if_true]
        exact ⟨rfl, rfl⟩
    | @more b ts ns h =>
      have a0 := At_cons.1 hat
      have a1 := At_cons.1 a0.2
      have hl := lt_of_some a1.1
      rns
      have e0 : i < e.toks.length := by omega
      refine ⟨by omega, ?_⟩
      simp only [e0, decide_true, Bool.and_self, Bool.not_false, if_true, runs_bind, runs_fwRead]
      refine ⟨_, a0.1, ?_⟩
      rns
      simp only [a1.1, Option.some.injEq, Token.sym.injEq, reduceCtorEq, decide_true, decide_false, Bool.true_or, Bool.and_self, Bool.toNat_true]
      refine ⟨by omega, by omega, ?_⟩
      exact runs_eq (removeLoop_complete n (cols ++ [nm b]) ns _ ts h a1.2 (by omega)) ⟨by simp, by simp; omega⟩

theorem alterRemove_complete {i : Nat} {ts : List Token} {ns : List String} (h : Names ts ns) (hat : At e i ts) :
    alterRemove e ⟨i, true⟩ = .ok (.remove ns, ⟨i + ts.length, true⟩) := by
  apply eq_of_runs
  simp only [alterRemove]
  rns
  have hlt : i < e.toks.length := by cases h <;> exact lt_of_some (At_cons.1 hat).1
  refine ⟨by omega, ?_⟩
  have e1 : (i = e.toks.length) = False := by simp; omega
  simp only [e1, decide_false, Bool.false_eq_true, if_false, runs_bind, runs_fwRead]
  cases h with
  | one b =>
    refine ⟨_, (At_cons.1 hat).1, ?_⟩
    exact ⟨rfl, rfl⟩
  | list h =>
    refine ⟨_, (At_cons.1 hat).1, ?_⟩
    rns
    exact runs_eq (removeLoop_complete _ [] ns _ _ h (At_cons.1 hat).2 (by omega)) ⟨by simp, by simp; omega⟩

theorem expandedField_complete {i : Nat} {ts : List Token} {c : Gns.Expanded} (h : Column ts c) (hat : At e i ts)
    (hl6 : i + 6 ≤ e.toks.length) :
    expandedField e ⟨i, true⟩ = .ok (c, ⟨i + ts.length, true⟩) := by
  apply eq_of_runs
  simp only [expandedField]
  rns
  have e1 : ¬ e.toks.length - i < 6 := by omega
  refine ⟨by omega, ?_⟩
  simp only [e1, if_false]
  rns
  cases h with
  | @props b ts d hb hd =>
    have a0 := At_cons.1 hat
    have a1 := At_cons.1 a0.2
    refine ⟨_, a0.1, by omega, ?_⟩
    simp only [a1.1, isId, decide_true, Bool.and_self]
    refine runs_eq (rfold_body hb (by simpa using hd) a1.2 (by omega) (by omega)) ?_
    simp only [Bool.false_eq_true, if_false]
    rns
    simp only [if_true]
    rns
    exact ⟨_, rfl, by simp, by simp; omega⟩
  | @typed b us ts d ls hu hd ht =>
    have a0 := At_cons.1 hat
    have a1 := At_cons.1 a0.2
    have a2 := At_append.1 a1.2
    have a3 := At_cons.1 a2.2
    have a4 := At_cons.1 a3.2
    have a5 := At_append.1 a4.2
    have a6 := At_cons.1 a5.2
    have hl4 := lt_of_some a4.1
    have hl6 := lt_of_some a6.1
    refine ⟨_, a0.1, by omega, ?_⟩
    simp only [a1.1, isId, decide_true, Bool.and_self]
    refine runs_eq (rfold_items hu (by simpa using hd) (At_append.2 ⟨a2.1, At_cons.2 ⟨a3.1, At_nil⟩⟩) (by omega) (by omega)) ?_
    simp only [if_true]
    rns
    have e2 : (i + 1 + 1 + us.length + 1 = e.toks.length) = False := by simp; omega
    refine ⟨by omega, ?_⟩
    simp only [e2, decide_false, Bool.false_eq_true, if_false]
    rns
    refine ⟨hl4, ?_⟩
    simp only [a4.1, decide_true, Bool.and_self]
    refine runs_eq (rfoldLayers_complete ht a5.1 (by omega) (by simp [a6.1])) ?_
    refine ⟨_, a6.1, ?_⟩
    rns
    simp only [if_true]
    rns
    exact ⟨_, rfl, by simp, by simp; omega⟩
  | @typedMore b us ts vs d d' ls hu ht hb hd =>
    have a0 := At_cons.1 hat
    have a1 := At_cons.1 a0.2
    have a2 := At_append.1 a1.2
    have a3 := At_cons.1 a2.2
    have a4 := At_cons.1 a3.2
    have a5 := At_append.1 a4.2
    have a6 := At_cons.1 a5.2
    have hl4 := lt_of_some a4.1
    have hl6 := lt_of_some a6.1
    refine ⟨_, a0.1, by omega, ?_⟩
    simp only [a1.1, isId, decide_true, Bool.and_self]
    refine runs_eq (rfold_items hu (by simpa using distinct_left hd) (At_append.2 ⟨a2.1, At_cons.2 ⟨a3.1, At_nil⟩⟩) (by omega) (by omega)) ?_
    simp only [if_true]
    rns
    have e2 : (i + 1 + 1 + us.length + 1 = e.toks.length) = False := by simp; omega
    refine ⟨by omega, ?_⟩
    simp only [e2, decide_false, Bool.false_eq_true, if_false]
    rns
    refine ⟨hl4, ?_⟩
    simp only [a4.1, decide_true, Bool.and_self]
    refine runs_eq (rfoldLayers_complete ht a5.1 (by omega) (by simp [a6.1])) ?_
    refine ⟨_, a6.1, ?_⟩
    simp only [List.nil_append, runs_bind]
    refine runs_eq (rfold_body hb hd a6.2 (by omega) (by omega)) ?_
    rns
    simp only [if_true]
    rns
    exact ⟨_, rfl, by simp, by simp; omega⟩

/-- The last column says something. -/
def LastFull (cs : List Gns.Expanded) : Prop := ∀ c, cs.getLast? = some c → c.layers ≠ [] ∨ c.props ≠ []

theorem Ty.ne_nil {ts : List Token} {ls : List LayerSpec} (h : Ty ts ls) : ls ≠ [] ∧ ts ≠ [] := by
  cases h <;> simp

theorem Value.ne_nil {ts : List Token} {v : DVal} (h : Value ts v) : 0 < ts.length := by
  cases h <;> simp

theorem Body.long {ts : List Token} {d : Dict} (h : Body ts d) : (ts = [tCB] ∧ d = []) ∨ (4 ≤ ts.length ∧ d ≠ []) := by
  cases h with
  | comma h =>
    cases h with
    | nil => exact .inl ⟨rfl, rfl⟩
    | cons hv h => exact .inr ⟨by simp; omega, by simp⟩
  | last h hv =>
    have := Value.ne_nil hv
    exact .inr ⟨by simp; omega, by simp⟩

theorem Column.long {ts : List Token} {c : Gns.Expanded} (h : Column ts c) :
    (∃ b, ts = [.ident b, tOB, tCB] ∧ c.layers = [] ∧ c.props = []) ∨ (6 ≤ ts.length ∧ (c.layers ≠ [] ∨ c.props ≠ [])) := by
  cases h with
  | props hb _ =>
    rcases Body.long hb with ⟨rfl, rfl⟩ | ⟨h1, h2⟩
    · exact .inl ⟨_, rfl, rfl, rfl⟩
    · exact .inr ⟨by simp; omega, .inr h2⟩
  | typed _ _ ht =>
    have := Ty.ne_nil ht
    have := List.length_pos_iff.2 this.2
    exact .inr ⟨by simp; omega, .inl (by simp [*])⟩
  | typedMore _ ht hb _ =>
    have := Ty.ne_nil ht
    have := List.length_pos_iff.2 this.2
    rcases Body.long hb with ⟨rfl, rfl⟩ | ⟨h1, h2⟩ <;> exact .inr ⟨by simp; omega, .inl (by simp [*])⟩

theorem ColumnList.long {ts : List Token} {cs : List Gns.Expanded} (h : ColumnList ts cs) : 4 ≤ ts.length := by
  cases h with
  | last h => rcases Column.long h with ⟨_, rfl, _⟩ | ⟨h, _⟩ <;> simp <;> omega
  | more h _ => rcases Column.long h with ⟨_, rfl, _⟩ | ⟨h, _⟩ <;> simp <;> omega

theorem Column.head {ts : List Token} {c : Gns.Expanded} (h : Column ts c) : ∃ b us, ts = .ident b :: us := by
  cases h <;> exact ⟨_, _, rfl⟩

theorem ColumnList.ne_nil {ts : List Token} {cs : List Gns.Expanded} (h : ColumnList ts cs) : cs ≠ [] := by
  cases h <;> simp

theorem expandedLoop_complete : ∀ (n : Nat) (cols cs : List Gns.Expanded) (i : Nat) (ts : List Token),
    ColumnList ts cs → LastFull cs → At e i ts → e.toks.length < i + n → i ≤ e.toks.length →
    expandedLoop n false cols e ⟨i, true⟩ = .ok (cols ++ cs, ⟨i + ts.length, true⟩)
  | 0, _, _, i, ts, h, _, hat, hn, hi => by
    have := At.le hat hi
    have := ColumnList.long h
    omega
  | n + 1, cols, cs, i, ts, h, hlf, hat, hn, hi => by
    apply eq_of_runs
    rw [expandedLoop]
    have hle := At.le hat hi
    have hlong := ColumnList.long h
    rns
    have e0 : i < e.toks.length := by omega
    refine ⟨by omega, ?_⟩
    simp only [e0, decide_true, Bool.and_self, Bool.not_false, if_true, runs_bind, runs_read]
    cases h with
    | @last ts c h =>
      have a0 := At_append.1 hat
      have a1 := At_cons.1 a0.2
      have hl := lt_of_some a1.1
      obtain ⟨b, us, hts⟩ := Column.head h
      have h6 : 6 ≤ ts.length := by
        rcases Column.long h with ⟨_, _, h1, h2⟩ | h
        · have := hlf c rfl
          simp [h1, h2] at this
        · exact h.1
      have hid : e.toks[i]? = some (.ident b) := (At_cons.1 (hts ▸ a0.1)).1
      refine ⟨_, hid, ?_⟩
      simp only [isId, if_true, runs_bind]
      refine runs_eq (expandedField_complete h a0.1 (by omega)) ?_
      rns
      simp only [a1.1, Option.some.injEq, Token.sym.injEq, reduceCtorEq, decide_true, decide_false, Bool.or_true, Bool.and_self, Bool.toNat_true]
      refine ⟨by omega, by omega, ?_⟩
      cases n with
      | zero => omega
      | succ n =>
        rw [expandedLoop]
        rns
        refine ⟨by omega, ?_⟩
        simp only [Bool.not_true, Bool.and_false, Bool.false_eq_true, if_false]
        rns
        simp only [Bool.and_self, if_true]
        exact ⟨rfl, by simp; omega⟩
    | @more ts us c cs' h h' =>
      have a0 := At_append.1 hat
      have a1 := At_cons.1 a0.2
      have hl := lt_of_some a1.1
      have hl2 := At.le a1.2 (by omega)
      have hl3 := ColumnList.long h'
      obtain ⟨b, vs, hts⟩ := Column.head h
      have h3 : 3 ≤ ts.length := by
        rcases Column.long h with ⟨_, rfl, h1, h2⟩ | h
        · simp
        · omega
      have hid : e.toks[i]? = some (.ident b) := (At_cons.1 (hts ▸ a0.1)).1
      refine ⟨_, hid, ?_⟩
      simp only [isId, if_true, runs_bind]
      refine runs_eq (expandedField_complete h a0.1 (by omega)) ?_
      rns
      simp only [a1.1, Option.some.injEq, Token.sym.injEq, reduceCtorEq, decide_true, decide_false, Bool.true_or, Bool.and_self, Bool.toNat_true]
      refine ⟨by omega, by omega, ?_⟩
      have hlf' : LastFull cs' := by
        intro x hx
        refine hlf x ?_
        obtain ⟨y, ys, rfl⟩ := List.exists_cons_of_ne_nil (ColumnList.ne_nil h')
        rw [List.getLast?_cons_cons]
        exact hx
      exact runs_eq (expandedLoop_complete n (cols ++ [c]) cs' _ us h' hlf' a1.2 (by omega) (by omega)) ⟨by simp, by simp; omega⟩

theorem parseMultiple_complete {i : Nat} {ts : List Token} {cs : List Gns.Expanded} (h : Columns ts cs) (hlf : LastFull cs)
    (hat : At e i ts) (hi : i ≤ e.toks.length) :
    parseMultiple e ⟨i, true⟩ = .ok (cs, ⟨i + ts.length, true⟩) := by
  apply eq_of_runs
  simp only [parseMultiple]
  have hle := At.le hat hi
  rns
  refine ⟨by omega, ?_⟩
  cases h with
  | @one _ c h =>
    obtain ⟨b, us, rfl⟩ := Column.head h
    have h6 : 6 ≤ (Token.ident b :: us).length := by
      rcases Column.long h with ⟨_, _, h1, h2⟩ | h
      · have := hlf c rfl
        simp [h1, h2] at this
      · exact h.1
    have e1 : ¬ e.toks.length - i < 5 := by omega
    simp only [e1, if_false, runs_bind, runs_read]
    refine ⟨_, (At_cons.1 hat).1, ?_⟩
    rns
    exact runs_eq (expandedField_complete h hat (by omega)) ⟨rfl, rfl⟩
  | list h =>
    have := ColumnList.long h
    simp only [List.length_cons] at hle
    have e1 : ¬ e.toks.length - i < 5 := by omega
    simp only [e1, if_false, runs_bind, runs_read]
    refine ⟨_, (At_cons.1 hat).1, ?_⟩
    rns
    exact runs_eq (expandedLoop_complete _ [] cs _ _ h hlf (At_cons.1 hat).2 (by omega) (by omega)) ⟨by simp, by simp; omega⟩

/-- What is said about the columns can be read. -/
def AlterFull : Gns.AlterKind → Prop
  | .add cs => LastFull cs
  | .update cs => LastFull cs
  | .remove _ => True

theorem alterModel_complete {i : Nat} {ns ts : List Token} {s m : String} {k : Gns.AlterKind} (hn : Full ns s m) (hk : Alter ts k)
    (hf : AlterFull k) (hat : At e i (ns ++ ts)) :
    alterModel e ⟨i, true⟩ = .ok (.alterModel s m k, ⟨i + (ns ++ ts).length, true⟩) := by
  apply eq_of_runs
  simp only [alterModel]
  have a0 := At_append.1 hat
  obtain ⟨t, us, rfl, htd⟩ : ∃ t us, ts = t :: us ∧ t ≠ tDot := by cases hk <;> exact ⟨_, _, rfl, by simp⟩
  have a1 := At_cons.1 a0.2
  have hl := lt_of_some a1.1
  have hl3 : ns.length = 3 := by cases hn; rfl
  rns
  refine ⟨by omega, ?_⟩
  have e1 : ¬ e.toks.length - i ≤ 2 := by omega
  simp only [e1, if_false, runs_hasIdentRounded]
  refine ⟨⟨by omega, by omega⟩, ?_⟩
  have hid : idAt e i = true := by
    rw [idAt_iff]
    cases hn with
    | mk a b => exact ⟨a, (At_cons.1 a0.1).1⟩
  simp only [hid, Bool.not_true, Bool.false_eq_true, if_false, runs_bind]
  refine runs_eq (entityRef_complete (.full hn) a0.1 (by simpa [a1.1] using htd)) ?_
  simp only [runs_fwRead]
  refine ⟨_, a1.1, ?_⟩
  cases hk with
  | add h =>
    simp only [runs_bind]
    refine runs_eq (parseMultiple_complete h hf a1.2 (by omega)) ?_
    exact ⟨rfl, by simp; omega⟩
  | update h =>
    simp only [runs_bind]
    refine runs_eq (parseMultiple_complete h hf a1.2 (by omega)) ?_
    exact ⟨rfl, by simp; omega⟩
  | remove h =>
    simp only [runs_bind]
    refine runs_eq (alterRemove_complete h a1.2) ?_
    exact ⟨rfl, by simp; omega⟩

/-! ### DROP -/

theorem checkIfExists_complete {i : Nat} {os : List Token} {b : Bool} {t : Token} {us : List Token} (h : Opt ifExists os b)
    (hat : At e i (os ++ t :: us)) (ht : t ≠ kw .if) :
    checkIfExists e ⟨i, true⟩ = .ok (b, ⟨i + os.length, true⟩) := by
  apply eq_of_runs
  have a0 := At_append.1 hat
  have a1 := At_cons.1 a0.2
  have hl := lt_of_some a1.1
  have g : ∀ k, ∃ t, e.toks[min (e.toks.length - 1) (i + k)]? = some t := fun k => ⟨_, List.getElem?_eq_getElem (by omega)⟩
  obtain ⟨a, ha⟩ := g 0
  obtain ⟨c, hc⟩ := g 1
  have hr := ie_rounded (by omega) ha hc
  have h1 : ieAt e i = b ∧ os.length = b.toNat * 2 := by
    cases h with
    | yes => exact ⟨ieAt_iff.2 a0.1, rfl⟩
    | no =>
      have h0 : e.toks[i]? = some t := a1.1
      simp [ieAt, h0, ht]
  simp only [checkIfExists]
  rns
  have e1 : (i = e.toks.length) = False := by simp; omega
  refine ⟨by omega, ?_⟩
  simp only [e1, decide_false, Bool.false_eq_true, if_false]
  rns
  refine ⟨a, ha, c, hc, ?_⟩
  simp only [hr, h1.1]
  rw [← h1.2]
  refine ⟨by omega, ?_⟩
  have e2 : (i + os.length = e.toks.length) = False := by simp; omega
  simp only [e2, decide_false, Bool.false_eq_true, if_false]
  exact ⟨rfl, rfl⟩

theorem dropSpace_complete {i : Nat} {os fs : List Token} {b : Bytes} {ie force : Bool} (ho : Opt ifExists os ie)
    (hf : Force fs force) (hat : At e i (os ++ fs ++ [.ident b])) :
    dropSpace e ⟨i, true⟩ = .ok (.dropSpace (nm b) force ie, ⟨i + (os ++ fs ++ [Token.ident b]).length, true⟩) := by
  apply eq_of_runs
  simp only [dropSpace, runs_bind]
  rw [List.append_assoc] at hat
  have a0 := At_append.1 hat
  cases hf with
  | no =>
    refine runs_eq (checkIfExists_complete ho hat (by simp)) ?_
    rns
    refine ⟨_, (At_cons.1 a0.2).1, ?_⟩
    simp only [isId, if_true]
    rns
    exact ⟨_, (At_cons.1 a0.2).1, _, rfl, rfl, by simp; omega⟩
  | @yes w hw =>
    refine runs_eq (checkIfExists_complete ho hat (by simp)) ?_
    have a1 := At_cons.1 a0.2
    have a2 := At_cons.1 a1.2
    have a3 := At_cons.1 a2.2
    have a4 := At_cons.1 a3.2
    have hl := lt_of_some a4.1
    rns
    refine ⟨_, a1.1, ?_⟩
    simp only [isId, Bool.false_eq_true, if_false, runs_bind, runs_allowNonEmpty]
    refine ⟨⟨by omega, by omega⟩, ?_⟩
    have hal : allowAt e (i + os.length) = true := allowAt_iff.2 ⟨w, b, hw, by simpa using a0.2⟩
    simp only [hal, if_true]
    rns
    exact ⟨_, a4.1, _, rfl, rfl, by simp; omega⟩

theorem dropModel_complete {i : Nat} {os fs ns : List Token} {ie force : Bool} {s m : String} (ho : Opt ifExists os ie)
    (hf : Force fs force) (hn : Full ns s m) (hat : At e i (os ++ fs ++ ns))
    (hi : i + (os ++ fs ++ ns).length = e.toks.length) :
    dropModel e ⟨i, true⟩ = .ok (.dropModel s m force ie, ⟨i + (os ++ fs ++ ns).length, true⟩) := by
  apply eq_of_runs
  simp only [dropModel, runs_bind]
  rw [List.append_assoc] at hat
  have a0 := At_append.1 hat
  obtain ⟨b, us, hns⟩ : ∃ b us, ns = .ident b :: us := by cases hn; exact ⟨_, _, rfl⟩
  simp only [List.length_append] at hi
  cases hf with
  | no =>
    refine runs_eq (checkIfExists_complete (t := .ident b) (us := us) ho (by simpa [hns] using hat) (by simp)) ?_
    rns
    have a1 : e.toks[i + os.length]? = some (.ident b) := ((At_cons (t := Token.ident b) (ts := us)).1 (by simpa [hns] using a0.2)).1
    refine ⟨_, a1, ?_⟩
    simp only [isId, if_true, runs_bind]
    refine runs_eq (entityRef_complete (.full hn) (by simpa using a0.2) ?_) ?_
    · rw [none_of_le (by simp at hi; omega)]; simp
    · exact ⟨rfl, by simp; omega⟩
  | @yes w hw =>
    refine runs_eq (checkIfExists_complete ho hat (by simp)) ?_
    have a1 := At_cons.1 a0.2
    have a2 := At_cons.1 a1.2
    have a3 := At_cons.1 a2.2
    have a4 : e.toks[i + os.length + 1 + 1 + 1]? = some (.ident b) := ((At_cons (t := Token.ident b) (ts := us)).1 (by simpa [hns] using a3.2)).1
    have hl := lt_of_some a4
    rns
    refine ⟨_, a1.1, ?_⟩
    simp only [isId, Bool.false_eq_true, if_false, runs_bind, runs_allowNonEmpty]
    refine ⟨⟨by omega, by omega⟩, ?_⟩
    have hal : allowAt e (i + os.length) = true :=
      allowAt_iff.2 ⟨w, b, hw, At_cons.2 ⟨a1.1, At_cons.2 ⟨a2.1, At_cons.2 ⟨a3.1, At_cons.2 ⟨a4, At_nil⟩⟩⟩⟩⟩
    simp only [hal, if_true]
    rns
    simp only [List.length_cons, List.length_nil] at hi
    refine runs_eq (entityRef_complete (.full hn) (by simpa using a3.2) ?_) ?_
    · rw [none_of_le (by omega)]; simp
    · exact ⟨rfl, by simp; omega⟩

/-! ### Users -/

theorem runs_parseDict {i : Nat} {ts : List Token} {d : Dict} (h : Map ts d) (hat : At e i ts) {Q : Option Dict → St → Prop}
    (hq : Q (some d) ⟨i + ts.length, true⟩) : runs parseDict e Q ⟨i, true⟩ := by
  simp only [parseDict, runs_bind]
  refine runs_eq (rfoldDict_complete h hat) ?_
  rns
  simpa using hq

theorem userMeta_complete {i : Nat} {b : Bytes} {ts : List Token} {d : Dict} (h : Map ts d) (hd : d ≠ [])
    (hat : At e i (.ident b :: kw .with :: ts)) (hi : i + (ts.length + 2) = e.toks.length) :
    userMeta e ⟨i, true⟩ = .ok ((nm b, d), ⟨e.toks.length, true⟩) := by
  apply eq_of_runs
  simp only [userMeta]
  have h5 : 5 ≤ ts.length := by
    cases h with
    | mk hb _ =>
      rcases Body.long hb with ⟨rfl, rfl⟩ | h
      · exact absurd rfl hd
      · simp; omega
  have a0 := At_cons.1 hat
  have a1 := At_cons.1 a0.2
  obtain ⟨us, hts⟩ : ∃ us, ts = tOB :: us := by cases h; exact ⟨_, rfl⟩
  have a2 : e.toks[i + 2]? = some tOB := (At_cons.1 (hts ▸ a1.2)).1
  rns
  have e1 : ¬ e.toks.length - i < 7 := by omega
  refine ⟨by omega, ?_⟩
  simp only [e1, if_false, runs_bind, runs_readAt]
  refine ⟨_, a0.1, _, a1.1, _, a2, ?_⟩
  rns
  simp only [isId, tok_beq, decide_true, Bool.and_self]
  refine runs_parseDict h a1.2 ?_
  simp only [runs_bind]
  rns
  refine ⟨_, rfl, by omega, ?_⟩
  have e2 : ¬ (i + 1 + 1 + ts.length < e.toks.length) := by omega
  simp only [e2, decide_false, Bool.not_true, Bool.or_self, Bool.false_eq_true, if_false]
  exact ⟨rfl, by simp; omega⟩

theorem sysctl_complete {i : Nat} {ts : List Token} {c : Sysctl} (h : Sys ts c)
    (hu : ∀ n, c ≠ .user (.createUser n []) ∧ c ≠ .user (.alterUser n [])) (hat : At e i ts) (hi : i + ts.length = e.toks.length) :
    sysctl e ⟨i, true⟩ = .ok (c, ⟨e.toks.length, true⟩) := by
  apply eq_of_runs
  simp only [sysctl]
  cases h with
  | @createUser u b ts d hw hm =>
    have a0 := At_cons.1 hat
    have a1 := At_cons.1 a0.2
    simp only [List.length_cons] at hi
    rns
    have e1 : ¬ e.toks.length - i < 2 := by omega
    refine ⟨by omega, ?_⟩
    simp only [e1, if_false]
    rns
    refine ⟨_, a0.1, _, a1.1, ?_⟩
    have hw' : Lex.eqIgnoreCase u (Lex.ascii "user") = true := hw
    simp only [tok_beq, identEq, hw', Token.kw.injEq, Keyword.statement.injEq, reduceCtorEq, decide_false, decide_true, Bool.and_self, Bool.false_and, Bool.or_true, Bool.true_or, Bool.or_false,
      Bool.not_true, Bool.false_eq_true, if_false, if_true, runs_bind]
    refine runs_eq (userMeta_complete hm (by rintro rfl; exact (hu (nm b)).1 rfl) a1.2 (by omega)) ?_
    exact ⟨rfl, rfl⟩
  | @alterUser u b ts d hw hm =>
    have a0 := At_cons.1 hat
    have a1 := At_cons.1 a0.2
    simp only [List.length_cons] at hi
    rns
    have e1 : ¬ e.toks.length - i < 2 := by omega
    refine ⟨by omega, ?_⟩
    simp only [e1, if_false]
    rns
    refine ⟨_, a0.1, _, a1.1, ?_⟩
    have hw' : Lex.eqIgnoreCase u (Lex.ascii "user") = true := hw
    simp only [tok_beq, identEq, hw', Token.kw.injEq, Keyword.statement.injEq, reduceCtorEq, decide_false, decide_true, Bool.and_self, Bool.false_and, Bool.or_true, Bool.true_or, Bool.or_false,
      Bool.not_true, Bool.false_eq_true, if_false, if_true, runs_bind]
    refine runs_eq (userMeta_complete hm (by rintro rfl; exact (hu (nm b)).2 rfl) a1.2 (by omega)) ?_
    exact ⟨rfl, rfl⟩
  | @dropUser u b hw =>
    have a0 := At_cons.1 hat
    have a1 := At_cons.1 a0.2
    have a2 := At_cons.1 a1.2
    simp only [List.length_cons, List.length_nil] at hi
    rns
    have e1 : ¬ e.toks.length - i < 2 := by omega
    refine ⟨by omega, ?_⟩
    simp only [e1, if_false]
    rns
    refine ⟨_, a0.1, _, a1.1, ?_⟩
    have hw' : Lex.eqIgnoreCase u (Lex.ascii "user") = true := hw
    simp only [tok_beq, identEq, hw', Token.kw.injEq, Keyword.statement.injEq, reduceCtorEq, decide_false, decide_true, Bool.and_self, Bool.false_and, Bool.or_true, Bool.true_or, Bool.or_false,
      Bool.not_true, Bool.false_eq_true, if_false, if_true, runs_bind, userDel]
    rns
    refine ⟨⟨by omega, by omega⟩, by omega, ?_⟩
    have hid : idAt e (i + 1 + 1) = true := idAt_iff.2 ⟨b, a2.1⟩
    have e2 : e.toks.length - (i + 1 + 1) = 1 := by omega
    simp only [hid, e2, beq_self_eq_true, Bool.and_self, if_true]
    rns
    exact ⟨_, a2.1, _, rfl, rfl, by simp; omega⟩
  | @report a b hw hw2 =>
    have a0 := At_cons.1 hat
    have a1 := At_cons.1 a0.2
    simp only [List.length_cons, List.length_nil] at hi
    rns
    have e1 : ¬ e.toks.length - i < 2 := by omega
    refine ⟨by omega, ?_⟩
    simp only [e1, if_false]
    rns
    refine ⟨_, a0.1, _, a1.1, ?_⟩
    have hw' : Lex.eqIgnoreCase a (Lex.ascii "report") = true := hw
    have hw2' : Lex.eqIgnoreCase b (Lex.ascii "status") = true := hw2
    simp only [tok_beq, identEq, hw', hw2', reduceCtorEq, decide_false, decide_true, Bool.and_self, Bool.false_and, Bool.or_true, Bool.true_or, Bool.or_false,
      Bool.not_true, Bool.false_eq_true, if_false, if_true]
    exact ⟨rfl, by simp; omega⟩

/-! ### USE and INSPECT -/

theorem useStmt_complete {i : Nat} {ts : List Token} {u : Use} (h : Uses ts u) (hat : At e i ts)
    (hi : i + ts.length = e.toks.length) : useStmt e ⟨i, true⟩ = .ok (u, ⟨e.toks.length, true⟩) := by
  apply eq_of_runs
  simp only [useStmt]
  rns
  refine ⟨by omega, ?_⟩
  have e1 : (e.toks.length - i == 0 || decide (2 < e.toks.length - i)) = false := by
    cases h <;> simp at hi ⊢ <;> omega
  simp only [e1, Bool.false_eq_true, if_false, runs_bind, runs_fwRead]
  cases h with
  | space b => exact ⟨_, (At_cons.1 hat).1, rfl, by simp at hi; simp; omega⟩
  | null => exact ⟨_, (At_cons.1 hat).1, rfl, by simp at hi; simp; omega⟩
  | @current b hw =>
    refine ⟨_, (At_cons.1 hat).1, ?_⟩
    simp only [List.length_cons, List.length_nil] at hi
    rns
    refine ⟨by omega, ?_⟩
    have e2 : (i + 1 = e.toks.length) = False := by simp; omega
    simp only [e2, decide_false, Bool.false_eq_true, if_false, runs_bind, runs_fwRead]
    refine ⟨_, (At_cons.1 (At_cons.1 hat).2).1, ?_⟩
    have hw' : Lex.eqIgnoreCase b (Lex.ascii "current") = true := hw
    simp only [identEq, hw', if_true]
    exact ⟨rfl, by simp; omega⟩

theorem inspectStmt_complete {i : Nat} {ts : List Token} {u : Inspect} (h : Inspects e.cs ts u) (hat : At e i ts)
    (hi : i + ts.length = e.toks.length) : inspectStmt e ⟨i, true⟩ = .ok (u, ⟨e.toks.length, true⟩) := by
  apply eq_of_runs
  simp only [inspectStmt]
  rns
  refine ⟨by omega, ?_⟩
  have e1 : (i = e.toks.length) = False := by
    cases h <;> simp at hi ⊢ <;> omega
  simp only [e1, decide_false, Bool.false_eq_true, if_false, runs_bind, runs_fwRead]
  cases h with
  | @global b hw =>
    refine ⟨_, (At_cons.1 hat).1, ?_⟩
    have hw' : Lex.eqIgnoreCase b (Lex.ascii "global") = true := hw
    simp only [identEq, hw', if_true]
    exact ⟨rfl, by simp at hi; simp; omega⟩
  | space b =>
    refine ⟨_, (At_cons.1 hat).1, ?_⟩
    simp only [List.length_cons, List.length_nil] at hi
    rns
    refine ⟨by omega, ?_⟩
    have e2 : (i + 1 = e.toks.length) = False := by simp; omega
    simp only [e2, decide_false, Bool.false_eq_true, if_false, runs_bind, runs_fwRead]
    exact ⟨_, (At_cons.1 (At_cons.1 hat).2).1, rfl, by simp; omega⟩
  | model h =>
    refine ⟨_, (At_cons.1 hat).1, ?_⟩
    simp only [List.length_cons] at hi
    rns
    refine runs_eq (entityRef_complete h (At_cons.1 hat).2 ?_) ⟨rfl, by simp; omega⟩
    rw [none_of_le (by omega)]; simp

end Verif.Ql
