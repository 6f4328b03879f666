import Verif.Ql.CompDdl
import Verif.Ql.SoundDml
/-!
Statements on rows of the grammar are accepted by the parser, unless they are shorter than it allows.
-/
namespace Verif.Ql
open Verif.Lex (Token Symbol Keyword KwStmt KwMisc Lit ascii)
open Verif.Dml (cellOfLit AOp InsData Asn)
open Gr

set_option linter.unusedSimpArgs false

variable {e : Env}

/-! ### WHERE -/

theorem parseOperator_complete {i : Nat} {os : List Token} {c : Nat} {l : Lit} (h : Op os c) (hat : At e i (os ++ [.lit l])) :
    parseOperator e ⟨i, true⟩ = .ok (c, ⟨i + os.length, true⟩) := by
  apply eq_of_runs
  simp only [parseOperator]
  have a0 := At_append.1 hat
  cases h <;> simp only [List.cons_append, List.nil_append, At_cons, At_nil, and_true] at hat
  · simp only [runs_bind, runs_readAt]
    refine ⟨_, hat.1, ?_⟩
    simp [runs_pure, runs_poisonIfNot, runs_aheadBy, opCode]
  all_goals
    simp only [runs_bind, runs_readAt]
    refine ⟨_, hat.1, ?_⟩
    simp only [tok_beq, Token.sym.injEq, reduceCtorEq, decide_true, decide_false, Bool.or_true, Bool.true_or, Bool.or_false,
      if_true, runs_readAt]
    first
    | refine ⟨_, hat.2, ?_⟩
      simp [runs_pure, runs_bind, runs_poisonIfNot, runs_aheadBy, opCode]
      done
    | refine ⟨_, hat.2.1, ?_⟩
      simp [runs_pure, runs_bind, runs_poisonIfNot, runs_aheadBy, opCode]

theorem Op.length {os : List Token} {c : Nat} (h : Op os c) : 0 < os.length := by cases h <;> simp

theorem tryRel_complete {i : Nat} {b : Bytes} {os : List Token} {c : Nat} {l : Lit} (h : Op os c)
    (hat : At e i (.ident b :: (os ++ [.lit l]))) :
    tryRel e ⟨i, true⟩ = .ok (some (nm b, ⟨c, l⟩), ⟨i + 1 + os.length + 1, true⟩) := by
  apply eq_of_runs
  simp only [tryRel]
  have a0 := At_cons.1 hat
  have a1 := At_append.1 a0.2
  have a2 := At_cons.1 a1.2
  have hl := lt_of_some a2.1
  have := Op.length h
  rns
  have e1 : ¬ e.toks.length - i < 3 := by omega
  refine ⟨by omega, ?_⟩
  simp only [e1, if_false]
  rns
  refine ⟨_, a0.1, ?_⟩
  simp only [isId, Bool.and_self]
  refine runs_eq (parseOperator_complete h a0.2) ?_
  have e2 : litAt e (i + 1 + os.length) = true := litAt_iff.2 ⟨l, a2.1⟩
  refine ⟨by omega, ?_⟩
  simp only [e2, Bool.and_self, if_true]
  rns
  exact ⟨_, a2.1, _, rfl, _, rfl, rfl, trivial⟩

/-- At most two `and` at the end of the query. -/
theorem whereLoop_ands : ∀ (k n i : Nat) (c : Clauses), k ≤ 2 → At e i (List.replicate k (kw .and)) → i + k = e.toks.length →
    e.toks.length < i + n → 0 < e.toks.length → whereLoop n true c e ⟨i, true⟩ = .ok (c, ⟨e.toks.length, true⟩)
  | _, 0, _, _, _, _, _, hn, _ => by omega
  | 0, n + 1, i, c, _, _, hi, _, _ => by
    apply eq_of_runs
    rw [whereLoop]
    rns
    have e0 : ¬ i < e.toks.length := by omega
    refine ⟨by omega, ?_⟩
    simp only [e0, decide_false, Bool.false_and, Bool.and_false, Bool.false_eq_true, if_false]
    exact ⟨rfl, by simp; omega⟩
  | k + 1, n + 1, i, c, hk, hat, hi, hn, h0 => by
    apply eq_of_runs
    rw [whereLoop]
    rw [List.replicate_succ] at hat
    have a0 := At_cons.1 hat
    have e0 : i < e.toks.length := by omega
    rns
    refine ⟨by omega, ?_⟩
    simp only [e0, decide_true, Bool.and_self, if_true, tryRel]
    rns
    have e1 : e.toks.length - i < 3 := by omega
    refine ⟨by omega, ?_⟩
    simp only [e1, if_true, addClause]
    rns
    refine ⟨h0, ?_⟩
    simp only [a0.1, decide_true, Bool.toNat_true]
    exact runs_eq (whereLoop_ands k n (i + 1) c (by omega) a0.2 (by omega) (by omega) h0) ⟨rfl, rfl⟩

theorem whereLoop_complete : ∀ (n k : Nat) (c cs : Clauses) (i : Nat) (ts : List Token), Where ts cs → Distinct (c ++ cs) → k ≤ 3 →
    At e i (ts ++ List.replicate k (kw .and)) → i + ts.length + k = e.toks.length → e.toks.length < i + n →
    whereLoop n true c e ⟨i, true⟩ = .ok (c ++ cs, ⟨e.toks.length, true⟩)
  | 0, _, _, _, _, _, _, _, _, _, _, _ => by omega
  | n + 1, k, c, cs, i, ts, h, hd, hk, hat, hi, hn => by
    apply eq_of_runs
    rw [whereLoop]
    have := where_length h
    have e0 : i < e.toks.length := by omega
    rns
    refine ⟨by omega, ?_⟩
    simp only [e0, decide_true, Bool.and_self, if_true]
    rns
    cases h with
    | @one b os op l ho =>
      have a0 := At_append.1 hat
      simp only [List.length_cons, List.length_append, List.length_nil] at hi
      refine runs_eq (tryRel_complete ho a0.1) ?_
      have hf := cget_none_iff.2 (distinct_fresh hd)
      simp only [addClause]
      rns
      simp only [hf, Bool.and_self]
      refine ⟨by omega, ?_⟩
      cases k with
      | zero =>
        have e1 : e.toks[i + 1 + os.length + 1]? = none := none_of_le (by omega)
        simp only [e1, reduceCtorEq, decide_false, Bool.toNat_false, Nat.add_zero]
        cases n with
        | zero => omega
        | succ n =>
          rw [whereLoop]
          rns
          simp only [Bool.false_and, Bool.false_eq_true, if_false]
          exact ⟨by omega, rfl, by simp; omega⟩
      | succ k =>
        have a1 := At_cons.1 (List.replicate_succ ▸ a0.2)
        have e1 : e.toks[i + 1 + os.length + 1]? = some (kw .and) := by
          rw [← a1.1]; congr 1; simp; omega
        simp only [e1, decide_true, Bool.toNat_true]
        refine runs_eq (whereLoop_ands k n _ _ (by omega) ?_ (by omega) (by omega) (by omega)) ⟨rfl, rfl⟩
        rw [show i + 1 + os.length + 1 + 1 = i + (Token.ident b :: (os ++ [Token.lit l])).length + 1 by simp; omega]
        exact a1.2
    | @more b os ts op l cs ho h =>
      have hat' : At e i ((.ident b :: (os ++ [.lit l])) ++ (kw .and :: (ts ++ List.replicate k (kw .and)))) := by simpa using hat
      have a0 := At_append.1 hat'
      have a1 := At_cons.1 a0.2
      simp only [List.length_cons, List.length_append] at hi
      refine runs_eq (tryRel_complete ho a0.1) ?_
      have hf := cget_none_iff.2 (distinct_fresh hd)
      simp only [addClause]
      rns
      simp only [hf, Bool.and_self]
      refine ⟨by omega, ?_⟩
      have e1 : e.toks[i + 1 + os.length + 1]? = some (kw .and) := by
        rw [← a1.1]; congr 1; simp; omega
      simp only [e1, decide_true, Bool.toNat_true]
      refine runs_eq (whereLoop_complete n k _ cs _ ts h (by simpa using hd) hk ?_ (by omega) (by omega)) ⟨by simp, rfl⟩
      rw [show i + 1 + os.length + 1 + 1 = i + (Token.ident b :: (os ++ [Token.lit l])).length + 1 by simp; omega]
      exact a1.2

theorem parseWhere_complete {i : Nat} {ts : List Token} {w : Clauses} (h : Clause ts w) (hat : At e i ts)
    (hi : i + ts.length = e.toks.length) : parseWhere e ⟨i, true⟩ = .ok (w, ⟨e.toks.length, true⟩) := by
  apply eq_of_runs
  simp only [parseWhere]
  rns
  cases h with
  | @mk ts cs k hw hd hk =>
    have hne : w.isEmpty = false := by cases hw <;> rfl
    simp only [List.length_append, List.length_replicate] at hi
    refine runs_eq (whereLoop_complete _ k [] w i ts hw (by simpa using hd) hk hat (by omega) (by omega)) ?_
    simp [hne]

theorem Clause.length {ts : List Token} {w : Clauses} (h : Clause ts w) : 3 ≤ ts.length := by
  cases h with
  | mk h _ _ =>
    have := where_length h
    simp; omega

/-! ### INSERT -/

theorem funcSub_complete {i : Nat} {b : Bytes} (hat : At e i [.ident b, tOP, tCP]) :
    funcSub e ⟨i, true⟩ = .ok (calls e b (i + 3), ⟨i + 3, true⟩) := by
  apply eq_of_runs
  simp only [funcSub]
  rns
  exact ⟨_, (At_cons.1 hat).1, _, rfl, rfl, rfl⟩

theorem fnAt_of_at {i : Nat} {b : Bytes} (hat : At e i [.ident b, tOP, tCP]) : fnAt e i = true := by
  simp only [At_cons, At_nil, and_true] at hat
  simp [fnAt, hat, idAt_iff]

/-- The kind of the last element. -/
def lastKind (l : List Cell) : Option TagClass := l.getLast?.map Cell.kind

@[simp] theorem lastKind_snoc {l : List Cell} {d : Cell} : lastKind (l ++ [d]) = some d.kind := by simp [lastKind]

theorem lastKind_mem {l : List Cell} {k : TagClass} (h : lastKind l = some k) : ∃ x ∈ l, k = x.kind := by
  simp only [lastKind, Option.map_eq_some_iff] at h
  obtain ⟨x, hx, rfl⟩ := h
  exact ⟨x, List.mem_of_getLast? hx, rfl⟩

theorem lastKind_none {l : List Cell} (h : lastKind l = none) : l = [] := by
  simpa [lastKind] using h

/-- `prev` is the kind of the elements of the lists in `l`. -/
structure Inner (prev : Option TagClass) (l : List Cell) : Prop where
  all : ∀ xs, .list xs ∈ l → ∀ x ∈ xs, prev = some x.kind
  some : ∀ k, prev = some k → ∃ xs x, .list xs ∈ l ∧ x ∈ xs ∧ k = x.kind

theorem Inner.nil : Inner none [] := ⟨by simp, by simp⟩

theorem Inner.snoc {prev : Option TagClass} {l : List Cell} {d : Cell} (h : Inner prev l) (hd : ∀ xs, d ≠ .list xs) :
    Inner prev (l ++ [d]) := by
  constructor
  · intro xs hx
    simp only [List.mem_append, List.mem_singleton] at hx
    rcases hx with hx | hx
    · exact h.all xs hx
    · exact absurd hx.symm (hd xs)
  · intro k hk
    obtain ⟨xs, x, h1, h2, h3⟩ := h.some k hk
    exact ⟨xs, x, by simp [h1], h2, h3⟩

theorem Inner.snocList {prev : Option TagClass} {l l' nl : List Cell} (h : Inner prev l) (hu : Uniform (l ++ .list nl :: l')) :
    (prev.isNone || (lastKind nl).isNone || prev == lastKind nl) = true ∧
    Inner (if prev.isNone && (lastKind nl).isSome then lastKind nl else prev) (l ++ [.list nl]) := by
  have hmem : Cell.list nl ∈ l ++ .list nl :: l' := by simp
  cases hk : lastKind nl with
  | none =>
    have := lastKind_none hk
    subst this
    refine ⟨by simp, ?_⟩
    simp only [Option.isSome_none, Bool.and_false, Bool.false_eq_true, if_false]
    constructor
    · intro xs hx
      simp only [List.mem_append, List.mem_singleton] at hx
      rcases hx with hx | hx
      · exact h.all xs hx
      · cases hx; simp
    · intro k hk
      obtain ⟨xs, x, h1, h2, h3⟩ := h.some k hk
      exact ⟨xs, x, by simp [h1], h2, h3⟩
  | some k =>
    obtain ⟨y, hy, rfl⟩ := lastKind_mem hk
    cases prev with
    | none =>
      refine ⟨by simp, ?_⟩
      simp only [Option.isNone_none, Option.isSome_some, Bool.and_self, if_true]
      constructor
      · intro xs hx x hxx
        simp only [List.mem_append, List.mem_singleton] at hx
        rcases hx with hx | hx
        · exact absurd (h.all xs hx x hxx) (by simp)
        · cases hx
          rw [hu.2 _ _ hmem hmem x hxx y hy]
      · intro k hk'
        cases hk'
        exact ⟨nl, y, by simp, hy, rfl⟩
    | some p =>
      obtain ⟨xs, x, h1, h2, rfl⟩ := h.some p rfl
      have hxy : x.kind = y.kind := hu.2 xs nl (by simp [h1]) hmem x h2 y hy
      refine ⟨by simp [hxy], ?_⟩
      simp only [Option.isNone_some, Bool.false_and, Bool.false_eq_true, if_false]
      constructor
      · intro zs hz z hzz
        simp only [List.mem_append, List.mem_singleton] at hz
        rcases hz with hz | hz
        · exact h.all zs hz z hzz
        · cases hz
          rw [hxy, hu.2 _ _ hmem hmem y hy z hzz]
      · intro k hk'
        cases hk'
        exact ⟨xs, x, by simp [h1], h2, rfl⟩

theorem sameAsHead_of {d : Cell} {l l' : List Cell} (h : Uniform (l ++ d :: l')) : sameAsHead d l = true := by
  cases l with
  | nil => rfl
  | cons x l =>
    simp only [sameAsHead, beq_iff_eq]
    exact h.1 d (by simp) x (by simp)

theorem Elem.head {c : Calls} {i : Nat} {ts : List Token} {v : Cell} (h : Elem c i ts v) :
    ∃ t us, ts = t :: us ∧ t ≠ tCS ∧ t ≠ tCP ∧ t ≠ kw .null := by
  cases h <;> exact ⟨_, _, rfl, by simp, by simp, by simp⟩

theorem Elems.head {c : Calls} {i : Nat} {ts : List Token} {l : List Cell} (h : Elems c i ts l) :
    ∃ t us, ts = t :: us ∧ t ≠ tCS := by
  cases h with
  | last h =>
    obtain ⟨t, us, rfl, h, _⟩ := Elem.head h
    exact ⟨t, _, rfl, h⟩
  | more h _ =>
    obtain ⟨t, us, rfl, h, _⟩ := Elem.head h
    exact ⟨t, _, rfl, h⟩

theorem parseList_stop {n : Nat} {ov prev : Option TagClass} {l : List Cell} {i : Nat} (hn : 0 < n) (hi : i ≤ e.toks.length) :
    parseList n true ov prev l e ⟨i, true⟩ = .ok ((ov, l), ⟨i, true⟩) := by
  cases n with
  | zero => omega
  | succ n =>
    apply eq_of_runs
    rw [parseList]
    rns
    refine ⟨hi, ?_⟩
    simp only [Bool.not_true, Bool.and_false, Bool.false_eq_true, if_false]
    exact ⟨rfl, rfl⟩

theorem parseList_complete : ∀ (n : Nat) (prev : Option TagClass) (l l' : List Cell) (i : Nat) (ts : List Token),
    Elems (calls e) i ts l' → Uniform (l ++ l') → Inner prev l → At e i ts → e.toks.length < i + n → i ≤ e.toks.length →
    parseList n false (lastKind l) prev l e ⟨i, true⟩ = .ok ((lastKind (l ++ l'), l ++ l'), ⟨i + ts.length, true⟩)
  | 0, _, _, _, i, _, _, _, _, _, hn, hi => by omega
  | n + 1, prev, l, l', i, ts, h, hu, hin, hat, hn, hi => by
    apply eq_of_runs
    rw [parseList]
    obtain ⟨t, us, hts, _⟩ := Elems.head h
    have ht : e.toks[i]? = some t := (At_cons.1 (hts ▸ hat)).1
    have hlt := lt_of_some ht
    rns
    refine ⟨by omega, ?_⟩
    simp only [hlt, decide_true, Bool.and_self, Bool.not_false, if_true, runs_bind, runs_fwRead]
    refine ⟨t, ht, ?_⟩
    -- the element and what comes after it
    obtain ⟨vs, d, ds, ws, hE, h1, hrest⟩ : ∃ vs d ds ws, Elem (calls e) i vs d ∧ ts = vs ++ ws ∧ l' = d :: ds ∧
        ((ds = [] ∧ ws = [tCS]) ∨ ∃ ws', ws = tComma :: ws' ∧ Elems (calls e) (i + vs.length + 1) ws' ds) := by
      cases h with
      | last h => exact ⟨_, _, _, _, h, rfl, rfl, .inl ⟨rfl, rfl⟩⟩
      | more h h' => exact ⟨_, _, _, _, h, rfl, rfl, .inr ⟨_, rfl, h'⟩⟩
    obtain ⟨rfl, hrest⟩ := hrest
    subst h1
    have a0 := At_append.1 hat
    have hle := At.le a0.1 hi
    have cont : ∀ prev' j, Inner prev' (l ++ [d]) → j = i + vs.length →
        runs (do
          poisonIfNot (sameAsHead d l)
          let nxComma ← roundedEq tComma
          let nxClose ← roundedEq tCS
          poisonIfNot (nxComma || nxClose)
          let ok ← okay
          aheadIf ok
          parseList n nxClose (some d.kind) prev' (l ++ [d])) e
          (fun x y => x = (lastKind (l ++ d :: ds), l ++ d :: ds) ∧ y = ⟨i + (vs ++ ws).length, true⟩) ⟨j, true⟩ := by
      intro prev' j hin' hj
      subst hj
      rns
      refine ⟨by omega, by omega, ?_⟩
      rw [sameAsHead_of hu]
      rcases hrest with ⟨rfl, rfl⟩ | ⟨ws', rfl, h'⟩
      · have a1 := (At_cons.1 a0.2).1
        have := lt_of_some a1
        simp only [a1, Option.some.injEq, Token.sym.injEq, reduceCtorEq, decide_true, decide_false, Bool.or_true, Bool.and_self, Bool.toNat_true]
        refine runs_eq (parseList_stop (by omega) (by omega)) ⟨by simp, by simp; omega⟩
      · have a1 := At_cons.1 a0.2
        have := lt_of_some a1.1
        simp only [a1.1, Option.some.injEq, Token.sym.injEq, reduceCtorEq, decide_true, decide_false, Bool.true_or, Bool.and_self, Bool.toNat_true]
        have := parseList_complete n prev' (l ++ [d]) ds _ ws' h' (by simpa using hu) hin' a1.2 (by omega) (by omega)
        rw [lastKind_snoc] at this
        exact runs_eq this ⟨by simp, by simp; omega⟩
    cases hE with
    | lit x =>
      cases hts
      exact cont prev _ (hin.snoc fun xs => cellOfLit_ne_list) rfl
    | @call _ b v hc =>
      cases hts
      have hf : At e (i + 1) [.ident b, tOP, tCP] := (At_cons.1 a0.1).2
      simp only [runs_bind, runs_fnSig]
      refine ⟨⟨by omega, by omega⟩, ?_⟩
      simp only [fnAt_of_at hf, if_true, runs_bind]
      refine runs_eq (funcSub_complete hf) ?_
      have hc' : calls e b (i + 1 + 3) = some d := by rw [← hc]
      rw [hc']
      exact cont prev _ (hin.snoc fun xs => calls_ne_list hc') rfl
    | empty =>
      cases hts
      have a1 := (At_cons.1 (At_cons.1 a0.1).2).1
      have := lt_of_some a1
      simp only [runs_bind, runs_cursorEq, runs_aheadIf]
      refine ⟨by omega, ?_⟩
      simp only [a1, decide_true, Bool.toNat_true]
      refine runs_eq (parseList_stop (by omega) (by omega)) ?_
      have hs := hin.snocList hu
      simp only [lastKind, List.getLast?_nil, Option.map_none] at hs
      dsimp only
      rw [runs_poisonIfNot, hs.1]
      exact cont _ (i + 1 + 1) hs.2 rfl
    | @list _ xs nl hE' hU =>
      cases hts
      have a1 := (At_cons.1 a0.1).2
      obtain ⟨t', us', rfl, ht'⟩ := Elems.head hE'
      have a2 := (At_cons.1 a1).1
      have := lt_of_some a2
      simp only [runs_bind, runs_cursorEq, runs_aheadIf]
      refine ⟨by omega, ?_⟩
      have e1 : decide (e.toks[i + 1]? = some tCS) = false := by simp [a2, ht']
      simp only [e1, Bool.toNat_false, Nat.add_zero]
      have hr := parseList_complete n none [] nl _ _ hE' (by simpa using hU) .nil a1 (by omega) (by omega)
      refine runs_eq hr ?_
      have hs := hin.snocList hu
      simp only [List.nil_append]
      rw [runs_poisonIfNot, hs.1]
      exact cont _ (i + 1 + (t' :: us').length) hs.2 (by simp; omega)

theorem list_complete {i : Nat} {ts : List Token} {l : List Cell} (h : Elem (calls e) i (tOS :: ts) (.list l)) (hat : At e (i + 1) ts) :
    list e ⟨i + 1, true⟩ = .ok (l, ⟨i + 1 + ts.length, true⟩) := by
  apply eq_of_runs
  simp only [list]
  rns
  cases h with
  | empty =>
    have a1 := (At_cons.1 hat).1
    have := lt_of_some a1
    refine ⟨by omega, ?_⟩
    simp only [a1, decide_true, Bool.toNat_true]
    exact runs_eq (parseList_stop (by omega) (by omega)) ⟨rfl, by simp⟩
  | list hE hU =>
    obtain ⟨t', us', rfl, ht'⟩ := Elems.head hE
    have a2 := (At_cons.1 hat).1
    have := lt_of_some a2
    refine ⟨by omega, ?_⟩
    have e1 : decide (e.toks[i + 1]? = some tCS) = false := by simp [a2, ht']
    simp only [e1, Bool.toNat_false, Nat.add_zero]
    exact runs_eq (parseList_complete _ none [] l _ _ hE (by simpa using hU) .nil hat (by omega) (by omega)) ⟨by simp, rfl⟩

theorem value_complete {i : Nat} {t : Token} {ts : List Token} {v : Cell} (h : Datum (calls e) i (t :: ts) v) (hat : At e i (t :: ts)) :
    value t e ⟨i + 1, true⟩ = .ok (.val v, ⟨i + 1 + ts.length, true⟩) := by
  apply eq_of_runs
  have hlt := lt_of_some (At_cons.1 hat).1
  cases h with
  | null => exact ⟨rfl, rfl⟩
  | elem h =>
    generalize hx : t :: ts = xs at h
    cases h with
    | lit x => cases hx; exact ⟨rfl, rfl⟩
    | @call _ b v hc =>
      cases hx
      have hf : At e (i + 1) [.ident b, tOP, tCP] := (At_cons.1 hat).2
      simp only [value, runs_bind, runs_fnSig]
      refine ⟨⟨by omega, by omega⟩, ?_⟩
      simp only [fnAt_of_at hf, if_true, runs_bind]
      refine runs_eq (funcSub_complete hf) ?_
      have hc' : calls e b (i + 1 + 3) = some v := by rw [← hc]
      rw [hc']
      exact ⟨rfl, rfl⟩
    | empty =>
      cases hx
      have a1 := lt_of_some (At_cons.1 (At_cons.1 hat).2).1
      simp only [value, runs_bind, runs_notExhausted]
      refine ⟨by omega, ?_⟩
      simp only [a1, decide_true, if_true, runs_bind]
      exact runs_eq (list_complete .empty (At_cons.1 hat).2) ⟨rfl, rfl⟩
    | list hE hU =>
      cases hx
      obtain ⟨t', us', hts, _⟩ := Elems.head hE
      have a1 := lt_of_some (At_cons.1 (hts ▸ (At_cons.1 hat).2)).1
      simp only [value, runs_bind, runs_notExhausted]
      refine ⟨by omega, ?_⟩
      simp only [a1, decide_true, if_true, runs_bind]
      exact runs_eq (list_complete (.list hE hU) (At_cons.1 hat).2) ⟨rfl, rfl⟩

theorem Datum.head {c : Calls} {i : Nat} {ts : List Token} {v : Cell} (h : Datum c i ts v) :
    ∃ t us, ts = t :: us ∧ t ≠ tCP := by
  cases h with
  | null => exact ⟨_, _, rfl, by simp⟩
  | elem h =>
    obtain ⟨t, us, rfl, _, h, _⟩ := Elem.head h
    exact ⟨t, _, rfl, h⟩

theorem tupleLoop_stop {n : Nat} {l : List Cell} {i : Nat} {stop : Bool} (hn : 0 < n) (hi : i ≤ e.toks.length)
    (h : stop = true ∨ i = e.toks.length) : tupleLoop n stop l e ⟨i, true⟩ = .ok (l, ⟨i, true⟩) := by
  cases n with
  | zero => omega
  | succ n =>
    apply eq_of_runs
    rw [tupleLoop]
    rns
    refine ⟨hi, ?_⟩
    have : (decide (i < e.toks.length) && true && !stop) = false := by
      rcases h with rfl | rfl <;> simp
    simp only [this, Bool.false_eq_true, if_false]
    exact ⟨rfl, rfl⟩

theorem tupleLoop_complete : ∀ (n : Nat) (l l' : List Cell) (i : Nat) (ts : List Token), Tuple (calls e) i ts l' →
    At e i ts → i + ts.length = e.toks.length → e.toks.length < i + n →
    tupleLoop n false l e ⟨i, true⟩ = .ok (l ++ l', ⟨e.toks.length, true⟩)
  | 0, _, _, _, _, _, _, _, _ => by omega
  | n + 1, l, l', i, ts, h, hat, hi, hn => by
    apply eq_of_runs
    rw [tupleLoop]
    obtain ⟨vs, d, ds, ws, hE, h1, rfl, hrest⟩ : ∃ vs d ds ws, Datum (calls e) i vs d ∧ ts = vs ++ ws ∧ l' = d :: ds ∧
        ((ds = [] ∧ (ws = [tCP] ∨ ws = [tComma])) ∨ ∃ ws', ws = tComma :: ws' ∧ Tuple (calls e) (i + vs.length + 1) ws' ds) := by
      cases h with
      | last h => exact ⟨_, _, _, _, h, rfl, rfl, .inl ⟨rfl, .inl rfl⟩⟩
      | cut h => exact ⟨_, _, _, _, h, rfl, rfl, .inl ⟨rfl, .inr rfl⟩⟩
      | more h h' => exact ⟨_, _, _, _, h, rfl, rfl, .inr ⟨_, rfl, h'⟩⟩
    subst h1
    obtain ⟨t, us, rfl, htc⟩ := Datum.head hE
    have a0 := At_append.1 hat
    have ht := (At_cons.1 a0.1).1
    have hlt := lt_of_some ht
    simp only [List.length_append, List.length_cons] at hi
    rns
    refine ⟨by omega, ?_⟩
    simp only [hlt, decide_true, Bool.and_self, Bool.not_false, if_true, runs_bind, runs_fwRead]
    refine ⟨t, ht, ?_⟩
    refine runs_eq (value_complete hE a0.1) ?_
    rns
    refine ⟨by omega, by omega, ?_⟩
    rw [show i + (t :: us).length = i + 1 + us.length by simp; omega] at a0 hrest
    rcases hrest with ⟨rfl, rfl | rfl⟩ | ⟨ws', rfl, h'⟩
    · have a1 := (At_cons.1 a0.2).1
      simp only [a1, Option.some.injEq, Token.sym.injEq, reduceCtorEq, decide_true, decide_false, Bool.or_true, Bool.and_self, Bool.toNat_true]
      simp only [List.length_cons, List.length_nil] at hi
      exact runs_eq (tupleLoop_stop (by omega) (by omega) (.inl rfl)) ⟨by simp, by simp; omega⟩
    · have a1 := (At_cons.1 a0.2).1
      simp only [a1, Option.some.injEq, Token.sym.injEq, reduceCtorEq, decide_true, decide_false, Bool.true_or, Bool.and_self, Bool.toNat_true]
      simp only [List.length_cons, List.length_nil] at hi
      exact runs_eq (tupleLoop_stop (by omega) (by omega) (.inr (by omega))) ⟨by simp, by simp; omega⟩
    · have a1 := At_cons.1 a0.2
      simp only [a1.1, Option.some.injEq, Token.sym.injEq, reduceCtorEq, decide_true, decide_false, Bool.true_or, Bool.and_self, Bool.toNat_true]
      simp only [List.length_cons] at hi
      exact runs_eq (tupleLoop_complete n (l ++ [d]) ds _ ws' h' a1.2 (by omega) (by omega)) ⟨by simp, rfl⟩

theorem mapLoop_stop {n : Nat} {l : List (String × Cell)} {i : Nat} {stop : Bool} (hn : 0 < n) (hi : i ≤ e.toks.length)
    (h : stop = true ∨ i = e.toks.length) : mapLoop n stop l e ⟨i, true⟩ = .ok (l, ⟨i, true⟩) := by
  cases n with
  | zero => omega
  | succ n =>
    apply eq_of_runs
    rw [mapLoop]
    rns
    refine ⟨hi, ?_⟩
    have : (decide (3 ≤ e.toks.length - i) && true && !stop) = false := by
      rcases h with rfl | rfl <;> simp
    simp only [this, Bool.false_eq_true, if_false]
    exact ⟨rfl, rfl⟩

theorem mapLoop_complete : ∀ (n : Nat) (l l' : List (String × Cell)) (i : Nat) (ts : List Token), Named (calls e) i ts l' →
    Distinct (l ++ l') → At e i ts → i + ts.length = e.toks.length → e.toks.length < i + n →
    mapLoop n false l e ⟨i, true⟩ = .ok (l ++ l', ⟨e.toks.length, true⟩)
  | 0, _, _, _, _, _, _, _, _, _ => by omega
  | n + 1, l, l', i, ts, h, hd, hat, hi, hn => by
    apply eq_of_runs
    rw [mapLoop]
    obtain ⟨b, vs, d, ds, ws, hE, h1, rfl, hrest⟩ : ∃ b vs d ds ws, Datum (calls e) (i + 2) vs d ∧
        ts = .ident b :: tColon :: (vs ++ ws) ∧ l' = (nm b, d) :: ds ∧
        ((ds = [] ∧ (ws = [tCB] ∨ ws = [tComma])) ∨ ∃ ws', ws = tComma :: ws' ∧ Named (calls e) (i + 2 + vs.length + 1) ws' ds) := by
      cases h with
      | last h => exact ⟨_, _, _, _, _, h, rfl, rfl, .inl ⟨rfl, .inl rfl⟩⟩
      | cut h => exact ⟨_, _, _, _, _, h, rfl, rfl, .inl ⟨rfl, .inr rfl⟩⟩
      | more h h' => exact ⟨_, _, _, _, _, h, rfl, rfl, .inr ⟨_, rfl, h'⟩⟩
    subst h1
    obtain ⟨t, us, rfl, htc⟩ := Datum.head hE
    have b0 := At_cons.1 hat
    have b1 := At_cons.1 b0.2
    have a0 := At_append.1 b1.2
    have ht := (At_cons.1 a0.1).1
    have hlt := lt_of_some ht
    simp only [List.length_append, List.length_cons] at hi
    rns
    refine ⟨by omega, ?_⟩
    have e1 : 3 ≤ e.toks.length - i := by omega
    simp only [e1, decide_true, Bool.and_self, Bool.not_false, if_true, runs_bind, runs_fwRead]
    refine ⟨_, b0.1, _, b1.1, _, ht, ?_⟩
    rns
    simp only [tok_beq, decide_true, Bool.and_self]
    refine runs_eq (value_complete hE a0.1) ?_
    have hf := mget_none_iff.2 (distinct_fresh hd)
    simp only [runs_bind, runs_poisonIfNot, hf, Bool.and_self, runs_roundedEq, runs_okay, runs_aheadIf]
    refine ⟨by omega, by omega, ?_⟩
    rw [show i + 1 + 1 + (t :: us).length = i + 2 + 1 + us.length by simp; omega] at a0
    rw [show i + 2 + (t :: us).length = i + 2 + 1 + us.length by simp; omega] at hrest
    rcases hrest with ⟨rfl, rfl | rfl⟩ | ⟨ws', rfl, h'⟩
    · have a1 := (At_cons.1 a0.2).1
      simp only [a1, Option.some.injEq, Token.sym.injEq, reduceCtorEq, decide_true, decide_false, Bool.or_true, Bool.and_self, Bool.toNat_true]
      simp only [List.length_cons, List.length_nil] at hi
      exact runs_eq (mapLoop_stop (by omega) (by omega) (.inl rfl)) ⟨by simp, by simp; omega⟩
    · have a1 := (At_cons.1 a0.2).1
      simp only [a1, Option.some.injEq, Token.sym.injEq, reduceCtorEq, decide_true, decide_false, Bool.true_or, Bool.and_self, Bool.toNat_true]
      simp only [List.length_cons, List.length_nil] at hi
      exact runs_eq (mapLoop_stop (by omega) (by omega) (.inr (by omega))) ⟨by simp, by simp; omega⟩
    · have a1 := At_cons.1 a0.2
      simp only [a1.1, Option.some.injEq, Token.sym.injEq, reduceCtorEq, decide_true, decide_false, Bool.true_or, Bool.and_self, Bool.toNat_true]
      simp only [List.length_cons] at hi
      exact runs_eq (mapLoop_complete n (l ++ [(nm b, d)]) ds _ ws' h' (by simpa using hd) a1.2 (by omega) (by omega)) ⟨by simp, rfl⟩

theorem Data.head {c : Calls} {i : Nat} {ts : List Token} {d : InsData} (h : Data c i ts d) :
    ∃ t us, ts = t :: us ∧ 0 < us.length ∧ ((t = tOP ∧ ∃ l, d = .ordered l) ∨ (t = tOB ∧ ∃ l, d = .map l)) := by
  cases h with
  | noValues => exact ⟨_, _, rfl, by simp, .inl ⟨rfl, _, rfl⟩⟩
  | tuple h => exact ⟨_, _, rfl, by cases h <;> simp <;> omega, .inl ⟨rfl, _, rfl⟩⟩
  | noNames => exact ⟨_, _, rfl, by simp, .inr ⟨rfl, _, rfl⟩⟩
  | named h _ => exact ⟨_, _, rfl, by cases h <;> simp, .inr ⟨rfl, _, rfl⟩⟩

theorem tuple_complete {i : Nat} {ts : List Token} {l : List Cell} (h : Data (calls e) i (tOP :: ts) (.ordered l)) (hat : At e (i + 1) ts)
    (hi : i + 1 + ts.length = e.toks.length) : tuple e ⟨i + 1, true⟩ = .ok (l, ⟨e.toks.length, true⟩) := by
  apply eq_of_runs
  simp only [tuple]
  rns
  cases h with
  | noValues =>
    have a1 := (At_cons.1 hat).1
    have := lt_of_some a1
    simp only [List.length_cons, List.length_nil] at hi
    refine ⟨by omega, ?_⟩
    simp only [a1, decide_true, Bool.toNat_true]
    exact runs_eq (tupleLoop_stop (by omega) (by omega) (.inl rfl)) ⟨rfl, by simp; omega⟩
  | tuple h =>
    obtain ⟨t, us, rfl, ht⟩ : ∃ t us, ts = t :: us ∧ t ≠ tCP := by
      cases h with
      | last h => obtain ⟨t, us, rfl, h'⟩ := Datum.head h; exact ⟨t, _, rfl, h'⟩
      | cut h => obtain ⟨t, us, rfl, h'⟩ := Datum.head h; exact ⟨t, _, rfl, h'⟩
      | more h _ => obtain ⟨t, us, rfl, h'⟩ := Datum.head h; exact ⟨t, _, rfl, h'⟩
    have a1 := (At_cons.1 hat).1
    have := lt_of_some a1
    refine ⟨by omega, ?_⟩
    have e1 : decide (e.toks[i + 1]? = some tCP) = false := by simp [a1, ht]
    simp only [e1, Bool.toNat_false, Nat.add_zero]
    exact runs_eq (tupleLoop_complete _ [] l _ _ h hat hi (by omega)) ⟨by simp, rfl⟩

theorem dataMap_complete {i : Nat} {ts : List Token} {l : List (String × Cell)} (h : Data (calls e) i (tOB :: ts) (.map l)) (hat : At e (i + 1) ts)
    (hi : i + 1 + ts.length = e.toks.length) : dataMap e ⟨i + 1, true⟩ = .ok (l, ⟨e.toks.length, true⟩) := by
  apply eq_of_runs
  simp only [dataMap]
  rns
  cases h with
  | noNames =>
    have a1 := (At_cons.1 hat).1
    have := lt_of_some a1
    simp only [List.length_cons, List.length_nil] at hi
    refine ⟨by omega, ?_⟩
    simp only [a1, decide_true, Bool.toNat_true]
    exact runs_eq (mapLoop_stop (by omega) (by omega) (.inl rfl)) ⟨rfl, by simp; omega⟩
  | named h hd =>
    obtain ⟨t, us, rfl, ht⟩ : ∃ t us, ts = t :: us ∧ t ≠ tCB := by
      cases h <;> exact ⟨_, _, rfl, by simp⟩
    have a1 := (At_cons.1 hat).1
    have := lt_of_some a1
    refine ⟨by omega, ?_⟩
    have e1 : decide (e.toks[i + 1]? = some tCB) = false := by simp [a1, ht]
    simp only [e1, Bool.toNat_false, Nat.add_zero]
    exact runs_eq (mapLoop_complete _ [] l _ _ h (by simpa using hd) hat hi (by omega)) ⟨by simp, rfl⟩

theorem Name.length {cs : Option String} {ts : List Token} {s m : String} (h : Name cs ts s m) :
    ∃ b us, ts = .ident b :: us ∧ ((us = [] ∧ ts.length = 1) ∨ ts.length = 3) := by
  cases h with
  | full h => cases h; exact ⟨_, _, rfl, .inr rfl⟩
  | short b _ => exact ⟨_, _, rfl, .inl ⟨rfl, rfl⟩⟩

theorem insertStmt_complete {i : Nat} {ns ds : List Token} {s m : String} {d : InsData} (hn : Name e.cs ns s m)
    (hdat : Data (calls e) (i + 1 + ns.length) ds d) (hat : At e i (kw .into :: (ns ++ ds)))
    (hi : i + (1 + ns.length + ds.length) = e.toks.length) (h5 : i + 5 ≤ e.toks.length) :
    insertStmt e ⟨i, true⟩ = .ok (⟨s, m, .insert d⟩, ⟨e.toks.length, true⟩) := by
  apply eq_of_runs
  simp only [insertStmt]
  have a0 := At_cons.1 hat
  have a1 := At_append.1 a0.2
  obtain ⟨t, us, rfl, hus, ht⟩ := Data.head hdat
  have a2 := At_cons.1 a1.2
  simp only [List.length_cons] at hi
  rns
  have e1 : ¬ e.toks.length - i < 5 := by omega
  refine ⟨by omega, ?_⟩
  simp only [e1, if_false]
  rns
  refine ⟨by omega, ?_⟩
  simp only [a0.1, decide_true, Bool.and_self]
  refine runs_eq (entityBuffered_complete hn a1.1 (by omega) ?_) ?_
  · rw [a2.1]; rcases ht with ⟨rfl, _⟩ | ⟨rfl, _⟩ <;> simp
  refine ⟨_, a2.1, by dsimp only; omega, ?_⟩
  have e2 : i + 1 + ns.length + 1 < e.toks.length := by omega
  rcases ht with ⟨rfl, l, rfl⟩ | ⟨rfl, l, rfl⟩
  · simp only [tok_beq, e2, decide_true, Bool.and_self, if_true]
    rns
    refine runs_eq (tuple_complete hdat a2.2 (by omega)) ?_
    simp only [if_true]
    rns
    exact ⟨_, rfl, _, rfl, rfl, trivial⟩
  · simp only [tok_beq, e2, Token.sym.injEq, reduceCtorEq, decide_true, decide_false, Bool.and_self, Bool.false_and, Bool.false_eq_true, if_false, if_true]
    rns
    refine runs_eq (dataMap_complete hdat a2.2 (by omega)) ?_
    simp only [if_true]
    rns
    exact ⟨_, rfl, _, rfl, rfl, trivial⟩

/-! ### SELECT -/

theorem colLoop_complete : ∀ (n : Nat) (cols ns : List String) (i : Nat) (ts : List Token), ColNames ts ns → At e i (ts ++ [kw .from]) →
    e.toks.length < i + n → colLoop n cols e ⟨i, true⟩ = .ok (cols ++ ns, ⟨i + ts.length, true⟩)
  | 0, _, _, i, _, h, hat, hn => by
    obtain ⟨b, us, rfl⟩ := colNames_ident h
    have := lt_of_some (At_cons.1 hat).1
    omega
  | n + 1, cols, ns, i, ts, h, hat, hn => by
    apply eq_of_runs
    rw [colLoop]
    obtain ⟨b, us, hts⟩ := colNames_ident h
    have ht : e.toks[i]? = some (.ident b) := by subst hts; exact (At_cons.1 hat).1
    refine runs_go ht ?_
    simp only [runs_bind, runs_read]
    refine ⟨_, ht, ?_⟩
    have hlt := lt_of_some ht
    rns
    refine ⟨by omega, by omega, ?_⟩
    have fin : ∀ (m j : Nat) (l : List String), e.toks[j]? = some (kw .from) → 0 < m →
        colLoop m l e ⟨j, true⟩ = .ok (l, ⟨j, true⟩) := by
      intro m j l hj hm
      cases m with
      | zero => omega
      | succ m =>
        apply eq_of_runs
        rw [colLoop]
        refine runs_go hj ?_
        simp only [runs_bind, runs_read]
        exact ⟨_, hj, rfl, rfl⟩
    cases h with
    | last b' =>
      cases hts
      have a1 := (At_cons.1 (At_cons.1 hat).2).1
      have := lt_of_some a1
      simp only [a1, Option.some.injEq, reduceCtorEq, decide_true, decide_false, Bool.or_true, Bool.and_self, Bool.toNat_false, Nat.add_zero]
      exact runs_eq (fin _ _ _ a1 (by omega)) ⟨rfl, rfl⟩
    | comma b' =>
      cases hts
      have a0 := At_cons.1 (At_cons.1 hat).2
      have a1 := (At_cons.1 a0.2).1
      have := lt_of_some a1
      simp only [a0.1, Option.some.injEq, Token.sym.injEq, reduceCtorEq, decide_true, decide_false, Bool.true_or, Bool.and_self, Bool.toNat_true]
      exact runs_eq (fin _ _ _ a1 (by omega)) ⟨rfl, rfl⟩
    | @more b' ts ns h =>
      cases hts
      have a0 := At_cons.1 (At_cons.1 hat).2
      have := lt_of_some a0.1
      simp only [a0.1, Option.some.injEq, Token.sym.injEq, reduceCtorEq, decide_true, decide_false, Bool.true_or, Bool.and_self, Bool.toNat_true]
      exact runs_eq (colLoop_complete n _ ns _ ts h a0.2 (by omega)) ⟨by simp, by simp; omega⟩

theorem columns_complete {i : Nat} {ts : List Token} {cols : Option (List String)} (h : Cols ts cols) (hat : At e i (ts ++ [kw .from])) :
    columns e ⟨i, true⟩ = .ok (cols, ⟨i + ts.length, true⟩) := by
  apply eq_of_runs
  simp only [columns]
  rns
  cases h with
  | star =>
    have a0 := At_cons.1 hat
    refine ⟨lt_of_some a0.1, ?_⟩
    simp only [a0.1, decide_true, if_true]
    exact ⟨rfl, rfl⟩
  | @names ts ns h =>
    obtain ⟨b, us, rfl⟩ := colNames_ident h
    have a0 := At_cons.1 hat
    refine ⟨lt_of_some a0.1, ?_⟩
    simp only [a0.1, Option.some.injEq, reduceCtorEq, decide_false, Bool.false_eq_true, if_false, Bool.toNat_false, Nat.add_zero]
    rns
    refine runs_eq (colLoop_complete _ [] ns _ _ h hat (by omega)) ?_
    have : ns.isEmpty = false := by cases h <;> rfl
    simp [this]

theorem Cols.length {ts : List Token} {cols : Option (List String)} (h : Cols ts cols) : 0 < ts.length := by
  cases h with
  | star => simp
  | names h => cases h <;> simp

theorem selectStmt_complete {i : Nat} {fs ns ws : List Token} {s m : String} {cols : Option (List String)} {w : Clauses}
    (hc : Cols fs cols) (hn : Name e.cs ns s m) (hw : MaybeWhere ws w) (hat : At e i (fs ++ kw .from :: ns ++ ws))
    (hi : i + (fs ++ kw .from :: ns ++ ws).length = e.toks.length) (h3 : 3 ≤ ns.length ∨ ws ≠ []) :
    selectStmt e ⟨i, true⟩ = .ok (⟨s, m, .select cols w⟩, ⟨e.toks.length, true⟩) := by
  apply eq_of_runs
  simp only [selectStmt]
  simp only [List.append_assoc, List.cons_append] at hat hi
  have a0 := At_append.1 hat
  have a1 := At_cons.1 a0.2
  have a2 := At_append.1 a1.2
  have := Cols.length hc
  obtain ⟨b, us, hns, hnl⟩ := Name.length hn
  simp only [List.length_append, List.length_cons] at hi
  have hwl : ws ≠ [] → 4 ≤ ws.length := by
    cases hw with
    | no => simp
    | yes h => have := Clause.length h; simp; omega
  have h3' : 3 ≤ ns.length + ws.length := by
    rcases h3 with h | h
    · omega
    · have := hwl h; omega
  rns
  have e1 : ¬ e.toks.length - i < 3 := by omega
  refine ⟨by omega, ?_⟩
  simp only [e1, if_false]
  rns
  refine runs_eq (columns_complete hc (At_append.2 ⟨a0.1, At_cons.2 ⟨a1.1, At_nil⟩⟩)) ?_
  have e2 : ¬ e.toks.length - (i + fs.length) < 2 := by omega
  refine ⟨by dsimp only; omega, ?_⟩
  simp only [e2, decide_false, Bool.not_true, Bool.or_self, Bool.false_eq_true, if_false]
  rns
  refine ⟨by omega, ?_⟩
  simp only [a1.1, decide_true, Bool.and_self]
  cases hw with
  | no =>
    simp only [List.length_nil] at hi
    have e3 : e.toks[i + fs.length + 1 + ns.length]? = none := none_of_le (by omega)
    refine runs_eq (entityBuffered_complete hn a2.1 (by simp at h3'; omega) (by rw [e3]; simp)) ?_
    refine ⟨by omega, ?_⟩
    simp only [e3, reduceCtorEq, decide_false, Bool.false_eq_true, if_false]
    rns
    simp only [if_true]
    rns
    exact ⟨_, rfl, rfl, by simp; omega⟩
  | yes h =>
    have a3 := At_cons.1 a2.2
    simp only [List.length_cons] at hi h3'
    refine runs_eq (entityBuffered_complete hn a2.1 (by omega) (by rw [a3.1]; simp)) ?_
    refine ⟨by omega, ?_⟩
    simp only [a3.1, decide_true, if_true]
    rns
    refine runs_eq (parseWhere_complete h a3.2 (by omega)) ?_
    simp only [if_true]
    rns
    exact ⟨_, rfl, rfl, trivial⟩

theorem selectAllStmt_complete {i : Nat} {fs ns : List Token} {s m : String} {cols : Option (List String)} {n : UInt64}
    (hc : Cols fs cols) (hn : Name e.cs ns s m) (hat : At e i (fs ++ kw .from :: ns ++ [kw .limit, .lit (.uint n)])) :
    selectAllStmt e ⟨i, true⟩ = .ok (⟨s, m, .selectAll cols n⟩, ⟨i + (fs.length + ns.length + 3), true⟩) := by
  apply eq_of_runs
  simp only [selectAllStmt]
  simp only [List.append_assoc, List.cons_append] at hat
  have a0 := At_append.1 hat
  have a1 := At_cons.1 a0.2
  have a2 := At_append.1 a1.2
  have a3 := At_cons.1 a2.2
  have a4 := At_cons.1 a3.2
  have hl := lt_of_some a4.1
  have := Cols.length hc
  obtain ⟨b, us, hns, hnl⟩ := Name.length hn
  rns
  have e1 : ¬ e.toks.length - i < 5 := by omega
  refine ⟨by omega, ?_⟩
  simp only [e1, if_false]
  rns
  refine runs_eq (columns_complete hc (At_append.2 ⟨a0.1, At_cons.2 ⟨a1.1, At_nil⟩⟩)) ?_
  have e2 : ¬ e.toks.length - (i + fs.length) < 4 := by omega
  refine ⟨by dsimp only; omega, ?_⟩
  simp only [e2, if_false]
  rns
  refine ⟨by omega, ?_⟩
  simp only [a1.1, decide_true, Bool.and_self]
  refine runs_eq (entityBuffered_complete hn a2.1 (by omega) (by rw [a3.1]; simp)) ?_
  refine ⟨by omega, ?_⟩
  have e3 : ¬ (i + fs.length + 1 + ns.length + 1 = e.toks.length) := by omega
  simp only [a3.1, decide_true, Bool.and_self, Bool.toNat_true, e3, decide_false, Bool.not_false, if_true]
  refine ⟨by omega, ?_⟩
  rns
  refine ⟨_, a4.1, _, rfl, ?_⟩
  rns
  exact ⟨_, rfl, rfl, by simp; omega⟩

/-! ### UPDATE and DELETE -/

theorem Assign.length {ts : List Token} {a : Asn} (h : Assign ts a) : 3 ≤ ts.length := by cases h <;> simp

theorem assignment_complete {i : Nat} {ts : List Token} {a : Asn} {as : List Asn} (h : Assign ts a) (hat : At e i ts) :
    assignment as e ⟨i, true⟩ = .ok (as ++ [a], ⟨i + ts.length, true⟩) := by
  apply eq_of_runs
  simp only [assignment]
  cases h with
  | assign b l =>
    simp only [At_cons, At_nil, and_true] at hat
    have hl := lt_of_some hat.2.2
    rns
    have e1 : ¬ e.toks.length - i < 3 := by omega
    refine ⟨by omega, ?_⟩
    simp only [e1, if_false]
    rns
    refine ⟨_, hat.1, _, hat.2.1, ?_⟩
    have e2 : litAt e (i + 1 + 1) = true := litAt_iff.2 ⟨l, hat.2.2⟩
    have h0 : 0 < e.toks.length := by omega
    simp [runs_bind, runs_ahead, runs_poisonIf, runs_poisonIfNot, runs_roundedEq, runs_aheadIf, runs_canReadLit, runs_okay, runs_read,
      runs_uckLit, runs_uckIdent, isId, hat.2.2, e2, h0, operator, runs_pure]
  | add b l =>
    simp only [At_cons, At_nil, and_true] at hat
    have hl := lt_of_some hat.2.2.2
    rns
    have e1 : ¬ e.toks.length - i < 3 := by omega
    refine ⟨by omega, ?_⟩
    simp only [e1, if_false]
    rns
    refine ⟨_, hat.1, _, hat.2.1, ?_⟩
    have e2 : litAt e (i + 1 + 1 + 1) = true := litAt_iff.2 ⟨l, hat.2.2.2⟩
    have h0 : 0 < e.toks.length := by omega
    simp [runs_bind, runs_ahead, runs_poisonIf, runs_poisonIfNot, runs_roundedEq, runs_aheadIf, runs_canReadLit, runs_okay, runs_read,
      runs_uckLit, runs_uckIdent, isId, hat.2.2.1, hat.2.2.2, e2, h0, operator, runs_pure]
  | sub b l =>
    simp only [At_cons, At_nil, and_true] at hat
    have hl := lt_of_some hat.2.2.2
    rns
    have e1 : ¬ e.toks.length - i < 3 := by omega
    refine ⟨by omega, ?_⟩
    simp only [e1, if_false]
    rns
    refine ⟨_, hat.1, _, hat.2.1, ?_⟩
    have e2 : litAt e (i + 1 + 1 + 1) = true := litAt_iff.2 ⟨l, hat.2.2.2⟩
    have h0 : 0 < e.toks.length := by omega
    simp [runs_bind, runs_ahead, runs_poisonIf, runs_poisonIfNot, runs_roundedEq, runs_aheadIf, runs_canReadLit, runs_okay, runs_read,
      runs_uckLit, runs_uckIdent, isId, hat.2.2.1, hat.2.2.2, e2, h0, operator, runs_pure]
  | mul b l =>
    simp only [At_cons, At_nil, and_true] at hat
    have hl := lt_of_some hat.2.2.2
    rns
    have e1 : ¬ e.toks.length - i < 3 := by omega
    refine ⟨by omega, ?_⟩
    simp only [e1, if_false]
    rns
    refine ⟨_, hat.1, _, hat.2.1, ?_⟩
    have e2 : litAt e (i + 1 + 1 + 1) = true := litAt_iff.2 ⟨l, hat.2.2.2⟩
    have h0 : 0 < e.toks.length := by omega
    simp [runs_bind, runs_ahead, runs_poisonIf, runs_poisonIfNot, runs_roundedEq, runs_aheadIf, runs_canReadLit, runs_okay, runs_read,
      runs_uckLit, runs_uckIdent, isId, hat.2.2.1, hat.2.2.2, e2, h0, operator, runs_pure]
  | div b l =>
    simp only [At_cons, At_nil, and_true] at hat
    have hl := lt_of_some hat.2.2.2
    rns
    have e1 : ¬ e.toks.length - i < 3 := by omega
    refine ⟨by omega, ?_⟩
    simp only [e1, if_false]
    rns
    refine ⟨_, hat.1, _, hat.2.1, ?_⟩
    have e2 : litAt e (i + 1 + 1 + 1) = true := litAt_iff.2 ⟨l, hat.2.2.2⟩
    have h0 : 0 < e.toks.length := by omega
    simp [runs_bind, runs_ahead, runs_poisonIf, runs_poisonIfNot, runs_roundedEq, runs_aheadIf, runs_canReadLit, runs_okay, runs_read,
      runs_uckLit, runs_uckIdent, isId, hat.2.2.1, hat.2.2.2, e2, h0, operator, runs_pure]

theorem assignLoop_complete : ∀ (n : Nat) (as as' : List Asn) (i : Nat) (ts : List Token), Assigns ts as' → At e i (ts ++ [kw .where]) →
    e.toks.length < i + n → assignLoop n false as e ⟨i, true⟩ = .ok ((true, as ++ as'), ⟨i + ts.length, true⟩)
  | 0, _, _, i, ts, h, hat, hn => by
    have := (At_append.1 hat).2
    have := lt_of_some (At_cons.1 this).1
    omega
  | n + 1, as, as', i, ts, h, hat, hn => by
    apply eq_of_runs
    rw [assignLoop]
    have a0 := At_append.1 hat
    have hlw := lt_of_some (At_cons.1 a0.2).1
    have hlt : i < e.toks.length := by omega
    rns
    refine ⟨by omega, ?_⟩
    simp only [hlt, decide_true, Bool.and_self, Bool.not_false, if_true, runs_bind]
    cases h with
    | last h =>
      refine runs_eq (assignment_complete h a0.1) ?_
      rns
      refine ⟨by omega, by omega, ?_⟩
      simp only [(At_cons.1 a0.2).1, Option.some.injEq, reduceCtorEq, decide_true, decide_false, Bool.or_true, Bool.and_self, Bool.toNat_false, Nat.add_zero]
      have := Assign.length h
      cases n with
      | zero => omega
      | succ n =>
        rw [assignLoop]
        rns
        refine ⟨by omega, ?_⟩
        simp only [Bool.not_true, Bool.and_false, Bool.false_eq_true, if_false]
        exact ⟨rfl, rfl⟩
    | @more ts us a as' h h' =>
      have b0 := At_append.1 a0.1
      have b1 := At_cons.1 b0.2
      refine runs_eq (assignment_complete h b0.1) ?_
      rns
      refine ⟨by omega, by omega, ?_⟩
      simp only [b1.1, Option.some.injEq, Token.sym.injEq, reduceCtorEq, decide_true, decide_false, Bool.true_or, Bool.and_self, Bool.toNat_true]
      refine runs_eq (assignLoop_complete n _ as' _ us h' ?_ (by omega)) ⟨by simp, by simp; omega⟩
      refine At_append.2 ⟨b1.2, ?_⟩
      rw [show i + ts.length + 1 + us.length = i + (ts ++ tComma :: us).length by simp; omega]
      exact a0.2

theorem Assigns.length {ts : List Token} {as : List Asn} (h : Assigns ts as) : 3 ≤ ts.length := by
  cases h with
  | last h => exact Assign.length h
  | more h _ => have := Assign.length h; simp; omega

theorem updateStmt_complete {i : Nat} {ns as ws : List Token} {s m : String} {l : List Asn} {w : Clauses} (hn : Name e.cs ns s m)
    (ha : Assigns as l) (hw : Clause ws w) (hat : At e i (ns ++ kw .set :: as ++ kw .where :: ws))
    (hi : i + (ns ++ kw .set :: as ++ kw .where :: ws).length = e.toks.length) :
    updateStmt e ⟨i, true⟩ = .ok (⟨s, m, .update l w⟩, ⟨e.toks.length, true⟩) := by
  apply eq_of_runs
  simp only [updateStmt]
  simp only [List.append_assoc, List.cons_append] at hat hi
  have a0 := At_append.1 hat
  have a1 := At_cons.1 a0.2
  have a2 := At_append.1 a1.2
  have a3 := At_cons.1 a2.2
  have := Clause.length hw
  have := Assigns.length ha
  obtain ⟨b, us, hns, hnl⟩ := Name.length hn
  simp only [List.length_append, List.length_cons] at hi
  rns
  have e1 : ¬ e.toks.length - i < 9 := by omega
  refine ⟨by omega, ?_⟩
  simp only [e1, if_false]
  rns
  refine runs_eq (entityBuffered_complete hn a0.1 (by omega) (by rw [a1.1]; simp)) ?_
  have e2 : ¬ e.toks.length - (i + ns.length) < 6 := by omega
  refine ⟨by dsimp only; omega, ?_⟩
  simp only [e2, if_false]
  rns
  refine ⟨by omega, ?_⟩
  simp only [a1.1, decide_true, Bool.and_self]
  refine runs_eq (assignLoop_complete _ [] l _ as ha (At_append.2 ⟨a2.1, At_cons.2 ⟨a3.1, At_nil⟩⟩) (by omega)) ?_
  simp only [Bool.and_self, Bool.toNat_true]
  refine runs_eq (parseWhere_complete hw a3.2 (by omega)) ?_
  simp only [if_true]
  rns
  exact ⟨_, rfl, by simp, trivial⟩

theorem deleteStmt_complete {i : Nat} {ns ws : List Token} {s m : String} {w : Clauses} (hn : Name e.cs ns s m)
    (hw : Clause ws w) (hat : At e i (kw .from :: (ns ++ kw .where :: ws)))
    (hi : i + (kw .from :: (ns ++ kw .where :: ws)).length = e.toks.length) :
    deleteStmt e ⟨i, true⟩ = .ok (⟨s, m, .delete w⟩, ⟨e.toks.length, true⟩) := by
  apply eq_of_runs
  simp only [deleteStmt]
  have a0 := At_cons.1 hat
  have a1 := At_append.1 a0.2
  have a2 := At_cons.1 a1.2
  have := Clause.length hw
  obtain ⟨b, us, hns, hnl⟩ := Name.length hn
  simp only [List.length_append, List.length_cons] at hi
  rns
  have e1 : ¬ e.toks.length - i < 5 := by omega
  refine ⟨by omega, ?_⟩
  simp only [e1, if_false]
  rns
  refine ⟨by omega, ?_⟩
  simp only [a0.1, decide_true, Bool.and_self]
  refine runs_eq (entityBuffered_complete hn a1.1 (by omega) (by rw [a2.1]; simp)) ?_
  refine ⟨by dsimp only; omega, ?_⟩
  simp only [a2.1, decide_true, Bool.and_self]
  refine runs_eq (parseWhere_complete hw a2.2 (by omega)) ?_
  simp only [if_true]
  rns
  exact ⟨_, rfl, rfl, trivial⟩

end Verif.Ql
