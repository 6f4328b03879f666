import Verif.Ql.Dispatch
/-!
Weakest preconditions of parsers: `wp p e Q s` says that the parser neither crashes nor gets stuck from
the state `s`, and that `Q` holds if it succeeds.
-/
namespace Verif.Ql
open Verif.Lex (Token Symbol Keyword KwStmt KwMisc Lit)

variable {α β : Type}

/-- The parser returns, and a value that it returns satisfies `Q`. -/
def wp (p : P α) (e : Env) (Q : α → St → Prop) (s : St) : Prop :=
  match p e s with
  | .ok (a, s') => Q a s'
  | .err _ => True
  | .panic => False
  | .hang => False

variable {e : Env} {s : St}

theorem wp_mono {p : P α} {Q R : α → St → Prop} (h : wp p e Q s) (hqr : ∀ a s', Q a s' → R a s') : wp p e R s := by
  unfold wp at *
  split at h <;> simp_all

@[simp] theorem wp_pure {a : α} {Q : α → St → Prop} : wp (pure a) e Q s = Q a s := rfl

@[simp] theorem wp_bind {p : P α} {k : α → P β} {Q : β → St → Prop} :
    wp (p >>= k) e Q s = wp p e (fun a s' => wp (k a) e Q s') s := by
  show wp (P.seq p k) e Q s = _
  unfold wp P.seq
  cases p e s <;> rfl

@[simp] theorem wp_ite {c : Prop} [Decidable c] {p q : P α} {Q : α → St → Prop} :
    wp (if c then p else q) e Q s = ((c → wp p e Q s) ∧ (¬ c → wp q e Q s)) := by
  split <;> simp_all

@[simp] theorem wp_fail {x : QlErr} {Q : α → St → Prop} : wp (fail x) e Q s = True := rfl
@[simp] theorem wp_crash {Q : α → St → Prop} : wp crash e Q s = False := rfl
@[simp] theorem wp_stuck {Q : α → St → Prop} : wp stuck e Q s = False := rfl
@[simp] theorem wp_okay {Q : Bool → St → Prop} : wp okay e Q s = Q s.f s := rfl
@[simp] theorem wp_poison {Q : Unit → St → Prop} : wp poison e Q s = Q () ⟨s.i, false⟩ := rfl
@[simp] theorem wp_poisonIf {b : Bool} {Q : Unit → St → Prop} : wp (poisonIf b) e Q s = Q () ⟨s.i, s.f && !b⟩ := rfl
@[simp] theorem wp_poisonIfNot {b : Bool} {Q : Unit → St → Prop} :
    wp (poisonIfNot b) e Q s = Q () ⟨s.i, s.f && b⟩ := by
  simp [poisonIfNot]
@[simp] theorem wp_aheadBy {n : Nat} {Q : Unit → St → Prop} : wp (aheadBy n) e Q s = Q () ⟨s.i + n, s.f⟩ := rfl
@[simp] theorem wp_ahead {Q : Unit → St → Prop} : wp ahead e Q s = Q () ⟨s.i + 1, s.f⟩ := rfl
@[simp] theorem wp_aheadIf {b : Bool} {Q : Unit → St → Prop} : wp (aheadIf b) e Q s = Q () ⟨s.i + b.toNat, s.f⟩ := rfl
@[simp] theorem wp_fuel {Q : Nat → St → Prop} : wp fuel e Q s = Q (e.toks.length + 1) s := rfl
@[simp] theorem wp_hasCs {Q : Bool → St → Prop} : wp hasCs e Q s = Q e.cs.isSome s := rfl
@[simp] theorem wp_getCs {Q : Option String → St → Prop} : wp getCs e Q s = Q e.cs s := rfl
@[simp] theorem wp_unrounded {Q : Bool → St → Prop} :
    wp unrounded e Q s = Q (min (e.toks.length - 1) s.i == s.i) s := rfl

@[simp] theorem wp_backBy {n : Nat} {Q : Unit → St → Prop} :
    wp (backBy n) e Q s = (n ≤ s.i ∧ Q () ⟨s.i - n, s.f⟩) := by
  unfold wp backBy
  by_cases h : n ≤ s.i <;> simp [h]

theorem wp_readAt {k : Nat} {Q : Token → St → Prop} :
    wp (readAt k) e Q s = (s.i + k < e.toks.length ∧ ∀ t, e.toks[s.i + k]? = some t → Q t s) := by
  unfold wp readAt
  by_cases h : s.i + k < e.toks.length
  · simp [h]
  · simp [h]

theorem wp_read {Q : Token → St → Prop} :
    wp read e Q s = (s.i < e.toks.length ∧ ∀ t, e.toks[s.i]? = some t → Q t s) := by
  simp only [read, wp_readAt, Nat.add_zero]

theorem wp_fwRead {Q : Token → St → Prop} :
    wp fwRead e Q s = (s.i < e.toks.length ∧ ∀ t, e.toks[s.i]? = some t → Q t ⟨s.i + 1, s.f⟩) := by
  simp [fwRead, wp_read]

theorem wp_offR {k : Nat} {Q : Token → St → Prop} :
    wp (offR k) e Q s = (0 < e.toks.length ∧ ∀ t, e.toks[min (e.toks.length - 1) (s.i + k)]? = some t → Q t s) := by
  unfold wp offR
  by_cases h : 0 < e.toks.length
  · have h' : min (e.toks.length - 1) (s.i + k) < e.toks.length := by omega
    simp [List.getElem?_eq_getElem h', h]
  · have : e.toks = [] := List.eq_nil_of_length_eq_zero (by omega)
    simp [this]

theorem wp_remaining {Q : Nat → St → Prop} :
    wp remaining e Q s = (s.i ≤ e.toks.length ∧ Q (e.toks.length - s.i) s) := by
  unfold wp remaining
  by_cases h : s.i ≤ e.toks.length <;> simp [h]

theorem wp_exhausted {Q : Bool → St → Prop} :
    wp exhausted e Q s = (s.i ≤ e.toks.length ∧ Q (decide (s.i = e.toks.length)) s) := by
  simp only [exhausted, wp_bind, wp_remaining, wp_pure]
  by_cases h : s.i ≤ e.toks.length
  · have : (e.toks.length - s.i == 0) = decide (s.i = e.toks.length) := by
      rw [Bool.eq_iff_iff]; simp; omega
    simp [this]
  · simp [h]

theorem wp_notExhausted {Q : Bool → St → Prop} :
    wp notExhausted e Q s = (s.i ≤ e.toks.length ∧ Q (decide (s.i < e.toks.length)) s) := by
  simp only [notExhausted, wp_bind, wp_remaining, wp_pure]
  by_cases h : s.i ≤ e.toks.length
  · have : (e.toks.length - s.i != 0) = decide (s.i < e.toks.length) := by
      rw [Bool.eq_iff_iff]; simp; omega
    simp [this]
  · simp [h]

theorem wp_loopTt {Q : Bool → St → Prop} :
    wp loopTt e Q s = (s.i ≤ e.toks.length ∧ Q (decide (s.i < e.toks.length) && s.f) s) := by
  simp [loopTt, wp_notExhausted]

theorem wp_cursorEq {t : Token} {Q : Bool → St → Prop} :
    wp (cursorEq t) e Q s = (s.i < e.toks.length ∧ Q (decide (e.toks[s.i]? = some t)) s) := by
  simp only [cursorEq, wp_bind, wp_read, wp_pure]
  by_cases h : s.i < e.toks.length
  · simp [h, BEq.beq]
  · simp [h]

theorem wp_cursorIsIdent {Q : Bool → St → Prop} :
    wp cursorIsIdent e Q s = (s.i < e.toks.length ∧ ∀ t, e.toks[s.i]? = some t → Q (isId t) s) := by
  simp [cursorIsIdent, wp_read]

/-- A rounded comparison is true exactly if the token at the cursor is the given one. -/
theorem wp_roundedEq {t : Token} {Q : Bool → St → Prop} :
    wp (roundedEq t) e Q s = (0 < e.toks.length ∧ Q (decide (e.toks[s.i]? = some t)) s) := by
  simp only [roundedEq, wp_bind, wp_offR, wp_unrounded, wp_pure, Nat.add_zero]
  by_cases h0 : 0 < e.toks.length
  · by_cases h : s.i < e.toks.length
    · have h1 : min (e.toks.length - 1) s.i = s.i := by omega
      simp [h0, h1, List.getElem?_eq_getElem h, BEq.beq]
    · have h1 : min (e.toks.length - 1) s.i = e.toks.length - 1 := by omega
      have h2 : e.toks[s.i]? = none := List.getElem?_eq_none (by omega)
      have h3 : e.toks.length - 1 < e.toks.length := by omega
      have h4 : (e.toks.length - 1 == s.i) = false := by simp; omega
      simp [h0, h1, h2, List.getElem?_eq_getElem h3, h4]
  · simp [h0]

/-- Is the token at the cursor a literal? -/
def litAt (e : Env) (i : Nat) : Bool :=
  match e.toks[i]? with
  | some t => isLit t
  | none => false

theorem wp_canReadLit {Q : Bool → St → Prop} :
    wp canReadLit e Q s = (0 < e.toks.length ∧ Q (litAt e s.i) s) := by
  simp only [canReadLit, wp_bind, wp_offR, wp_unrounded, wp_pure, Nat.add_zero, litAt]
  by_cases h0 : 0 < e.toks.length
  · by_cases h : s.i < e.toks.length
    · have h1 : min (e.toks.length - 1) s.i = s.i := by omega
      simp [h0, h1, List.getElem?_eq_getElem h]
    · have h1 : min (e.toks.length - 1) s.i = e.toks.length - 1 := by omega
      have h2 : e.toks[s.i]? = none := List.getElem?_eq_none (by omega)
      have h3 : e.toks.length - 1 < e.toks.length := by omega
      have h4 : (e.toks.length - 1 == s.i) = false := by simp; omega
      simp [h0, h1, h2, List.getElem?_eq_getElem h3, h4]
  · simp [h0]

/-- Is the token at the cursor an identifier? -/
def idAt (e : Env) (i : Nat) : Bool :=
  match e.toks[i]? with
  | some t => isId t
  | none => false

theorem wp_hasIdentRounded {Q : Bool → St → Prop} :
    wp hasIdentRounded e Q s = (0 < e.toks.length ∧ s.i ≤ e.toks.length ∧ Q (idAt e s.i) s) := by
  simp only [hasIdentRounded, wp_bind, wp_offR, wp_notExhausted, wp_pure, Nat.add_zero, idAt]
  by_cases h0 : 0 < e.toks.length
  · by_cases h : s.i < e.toks.length
    · have h1 : min (e.toks.length - 1) s.i = s.i := by omega
      simp [h0, h1, h]
    · have h1 : min (e.toks.length - 1) s.i = e.toks.length - 1 := by omega
      have h2 : e.toks[s.i]? = none := List.getElem?_eq_none (by omega)
      have h3 : e.toks.length - 1 < e.toks.length := by omega
      simp [h0, h1, List.getElem?_eq_getElem h3, h]
  · simp [h0]

/-- Does the cursor stand on `name ( )`? -/
def fnAt (e : Env) (i : Nat) : Bool :=
  idAt e i && decide (e.toks[i + 1]? = some tOP) && decide (e.toks[i + 2]? = some tCP)

theorem fnAt_lt {i : Nat} (h : fnAt e i = true) : i + 2 < e.toks.length := by
  simp only [fnAt, Bool.and_eq_true, decide_eq_true_eq] at h
  exact (List.getElem?_eq_some_iff.1 h.2).1

theorem wp_fnSig {Q : Bool → St → Prop} :
    wp fnSig e Q s = (0 < e.toks.length ∧ s.i ≤ e.toks.length ∧ Q (fnAt e s.i) s) := by
  simp only [fnSig, wp_bind, wp_offR, wp_remaining, wp_pure, Nat.add_zero]
  by_cases h0 : 0 < e.toks.length
  · by_cases h : s.i + 2 < e.toks.length
    · have h1 : min (e.toks.length - 1) s.i = s.i := by omega
      have h2 : min (e.toks.length - 1) (s.i + 1) = s.i + 1 := by omega
      have h3 : min (e.toks.length - 1) (s.i + 2) = s.i + 2 := by omega
      have h4 : s.i < e.toks.length := by omega
      have h5 : s.i + 1 < e.toks.length := by omega
      have h6 : s.i ≤ e.toks.length := by omega
      have h7 : 3 ≤ e.toks.length - s.i := by omega
      simp [h0, h1, h2, h3, h6, h7, List.getElem?_eq_getElem h, List.getElem?_eq_getElem h4,
        List.getElem?_eq_getElem h5, fnAt, idAt, BEq.beq]
    · have h1 : fnAt e s.i = false := by
        rcases hf : fnAt e s.i with _ | _
        · rfl
        · exact absurd (fnAt_lt hf) h
      have h2 : ¬ 3 ≤ e.toks.length - s.i := by omega
      have a0 : min (e.toks.length - 1) s.i < e.toks.length := by omega
      have a1 : min (e.toks.length - 1) (s.i + 1) < e.toks.length := by omega
      have a2 : min (e.toks.length - 1) (s.i + 2) < e.toks.length := by omega
      simp [h0, h1, h2, List.getElem?_eq_getElem a0, List.getElem?_eq_getElem a1, List.getElem?_eq_getElem a2]
  · simp [h0]

@[simp] theorem wp_uckIdent {t : Token} {Q : Bytes → St → Prop} :
    wp (uckIdent t) e Q s = ∃ b, t = .ident b ∧ Q b s := by
  cases t <;> simp [uckIdent]

@[simp] theorem wp_uckLit {t : Token} {Q : Lit → St → Prop} :
    wp (uckLit t) e Q s = ∃ b, t = .lit b ∧ Q b s := by
  cases t <;> simp [uckLit]

@[simp] theorem wp_assumeInit {o : Option α} {Q : α → St → Prop} :
    wp (assumeInit o) e Q s = ∃ a, o = some a ∧ Q a s := by
  cases o <;> simp [assumeInit]

theorem isId_iff {t : Token} : isId t = true ↔ ∃ b, t = .ident b := by cases t <;> simp [isId]
theorem isLit_iff {t : Token} : isLit t = true ↔ ∃ b, t = .lit b := by cases t <;> simp [isLit]

theorem idAt_iff {i : Nat} : idAt e i = true ↔ ∃ b, e.toks[i]? = some (.ident b) := by
  unfold idAt
  cases e.toks[i]? <;> simp [isId_iff]

theorem litAt_iff {i : Nat} : litAt e i = true ↔ ∃ b, e.toks[i]? = some (.lit b) := by
  unfold litAt
  cases e.toks[i]? <;> simp [isLit_iff]

theorem lt_of_some {i : Nat} {t : Token} (h : e.toks[i]? = some t) : i < e.toks.length :=
  (List.getElem?_eq_some_iff.1 h).1

end Verif.Ql
