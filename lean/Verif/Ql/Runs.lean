import Verif.Ql.Wp
/-!
Two more ways to reason about a parser: `lp p e Q s` says that `Q` holds if the parser succeeds, and
`runs p e Q s` says that it succeeds and `Q` holds. And the tokens from a position on.
-/
namespace Verif.Ql
open Verif.Lex (Token Symbol Keyword KwStmt KwMisc Lit)

variable {α β : Type} {e : Env} {s : St}

/-! ### If it succeeds -/

/-- A value that the parser returns satisfies `Q`. -/
def lp (p : P α) (e : Env) (Q : α → St → Prop) (s : St) : Prop :=
  match p e s with
  | .ok (a, s') => Q a s'
  | .err _ => True
  | .panic => True
  | .hang => True

theorem lp_iff {p : P α} {Q : α → St → Prop} : lp p e Q s ↔ ∀ a s', p e s = .ok (a, s') → Q a s' := by
  unfold lp
  cases p e s with
  | ok r => exact ⟨fun h a s' hr => by cases hr; exact h, fun h => h _ _ rfl⟩
  | _ => simp

theorem lp_mono {p : P α} {Q R : α → St → Prop} (h : lp p e Q s) (hqr : ∀ a s', Q a s' → R a s') : lp p e R s := by
  unfold lp at *
  split at h <;> simp_all

theorem lp_pure {a : α} {Q : α → St → Prop} : lp (pure a) e Q s = Q a s := rfl

theorem lp_bind {p : P α} {k : α → P β} {Q : β → St → Prop} :
    lp (p >>= k) e Q s = lp p e (fun a s' => lp (k a) e Q s') s := by
  show lp (P.seq p k) e Q s = _
  unfold lp P.seq
  cases p e s <;> rfl

theorem lp_ite {c : Prop} [Decidable c] {p q : P α} {Q : α → St → Prop} :
    lp (if c then p else q) e Q s = ((c → lp p e Q s) ∧ (¬ c → lp q e Q s)) := by
  split <;> simp_all

theorem lp_fail {x : QlErr} {Q : α → St → Prop} : lp (fail x) e Q s = True := rfl
theorem lp_crash {Q : α → St → Prop} : lp crash e Q s = True := rfl
theorem lp_stuck {Q : α → St → Prop} : lp stuck e Q s = True := rfl
theorem lp_okay {Q : Bool → St → Prop} : lp okay e Q s = Q s.f s := rfl
theorem lp_poison {Q : Unit → St → Prop} : lp poison e Q s = Q () ⟨s.i, false⟩ := rfl
theorem lp_poisonIf {b : Bool} {Q : Unit → St → Prop} : lp (poisonIf b) e Q s = Q () ⟨s.i, s.f && !b⟩ := rfl
theorem lp_poisonIfNot {b : Bool} {Q : Unit → St → Prop} : lp (poisonIfNot b) e Q s = Q () ⟨s.i, s.f && b⟩ := by
  simp [poisonIfNot, lp_poisonIf]
theorem lp_aheadBy {n : Nat} {Q : Unit → St → Prop} : lp (aheadBy n) e Q s = Q () ⟨s.i + n, s.f⟩ := rfl
theorem lp_ahead {Q : Unit → St → Prop} : lp ahead e Q s = Q () ⟨s.i + 1, s.f⟩ := rfl
theorem lp_aheadIf {b : Bool} {Q : Unit → St → Prop} : lp (aheadIf b) e Q s = Q () ⟨s.i + b.toNat, s.f⟩ := rfl
theorem lp_fuel {Q : Nat → St → Prop} : lp fuel e Q s = Q (e.toks.length + 1) s := rfl
theorem lp_hasCs {Q : Bool → St → Prop} : lp hasCs e Q s = Q e.cs.isSome s := rfl
theorem lp_getCs {Q : Option String → St → Prop} : lp getCs e Q s = Q e.cs s := rfl
theorem lp_unrounded {Q : Bool → St → Prop} : lp unrounded e Q s = Q (min (e.toks.length - 1) s.i == s.i) s := rfl

theorem lp_backBy {n : Nat} {Q : Unit → St → Prop} :
    lp (backBy n) e Q s = (n ≤ s.i → Q () ⟨s.i - n, s.f⟩) := by
  unfold lp backBy
  by_cases h : n ≤ s.i <;> simp [h]

theorem lp_readAt {k : Nat} {Q : Token → St → Prop} :
    lp (readAt k) e Q s = ∀ t, e.toks[s.i + k]? = some t → Q t s := by
  unfold lp readAt
  cases e.toks[s.i + k]? <;> simp

theorem lp_read {Q : Token → St → Prop} : lp read e Q s = ∀ t, e.toks[s.i]? = some t → Q t s := by
  simp only [read, lp_readAt, Nat.add_zero]

theorem lp_fwRead {Q : Token → St → Prop} :
    lp fwRead e Q s = ∀ t, e.toks[s.i]? = some t → Q t ⟨s.i + 1, s.f⟩ := by
  simp only [fwRead, lp_bind, lp_read, lp_ahead, lp_pure]

theorem lp_offR {k : Nat} {Q : Token → St → Prop} :
    lp (offR k) e Q s = ∀ t, e.toks[min (e.toks.length - 1) (s.i + k)]? = some t → Q t s := by
  unfold lp offR
  cases e.toks[min (e.toks.length - 1) (s.i + k)]? <;> simp

theorem lp_remaining {Q : Nat → St → Prop} :
    lp remaining e Q s = (s.i ≤ e.toks.length → Q (e.toks.length - s.i) s) := by
  unfold lp remaining
  by_cases h : s.i ≤ e.toks.length <;> simp [h]

/-- From `wp` of a parser whose `wp` is known. -/
theorem lp_of_wp {p : P α} {A : Prop} {a : α} {Q : α → St → Prop} (hw : ∀ Q, wp p e Q s = (A ∧ Q a s)) :
    lp p e Q s = (A → Q a s) := by
  have h1 : wp p e (fun a' s' => a' = a ∧ s' = s) s = A := by rw [hw]; simp
  have h2 : wp p e (fun _ _ => True) s = A := by rw [hw]; simp
  unfold lp
  unfold wp at h1 h2
  cases hp : p e s with
  | ok r =>
    rw [hp] at h1 h2
    simp only at h1 h2 ⊢
    have hA : A := h2 ▸ trivial
    obtain ⟨h3, h4⟩ : r.1 = a ∧ r.2 = s := h1.symm ▸ hA
    rw [h3, h4]
    simp [hA]
  | err x =>
    rw [hp] at h1 h2
    have := hw fun _ _ => False
    simp only [wp, hp, and_false] at this
    exact absurd trivial (this ▸ id)
  | panic =>
    rw [hp] at h2
    simp only at h2 ⊢
    rw [← h2]; simp
  | hang =>
    rw [hp] at h2
    simp only at h2 ⊢
    rw [← h2]; simp

theorem lp_exhausted {Q : Bool → St → Prop} :
    lp exhausted e Q s = (s.i ≤ e.toks.length → Q (decide (s.i = e.toks.length)) s) :=
  lp_of_wp fun _ => wp_exhausted

theorem lp_notExhausted {Q : Bool → St → Prop} :
    lp notExhausted e Q s = (s.i ≤ e.toks.length → Q (decide (s.i < e.toks.length)) s) :=
  lp_of_wp fun _ => wp_notExhausted

theorem lp_loopTt {Q : Bool → St → Prop} :
    lp loopTt e Q s = (s.i ≤ e.toks.length → Q (decide (s.i < e.toks.length) && s.f) s) :=
  lp_of_wp fun _ => wp_loopTt

theorem lp_cursorEq {t : Token} {Q : Bool → St → Prop} :
    lp (cursorEq t) e Q s = (s.i < e.toks.length → Q (decide (e.toks[s.i]? = some t)) s) :=
  lp_of_wp fun _ => wp_cursorEq

theorem lp_cursorIsIdent {Q : Bool → St → Prop} :
    lp cursorIsIdent e Q s = ∀ t, e.toks[s.i]? = some t → Q (isId t) s := by
  simp only [cursorIsIdent, lp_bind, lp_read, lp_pure]

theorem lp_roundedEq {t : Token} {Q : Bool → St → Prop} :
    lp (roundedEq t) e Q s = (0 < e.toks.length → Q (decide (e.toks[s.i]? = some t)) s) :=
  lp_of_wp fun _ => wp_roundedEq

theorem lp_canReadLit {Q : Bool → St → Prop} :
    lp canReadLit e Q s = (0 < e.toks.length → Q (litAt e s.i) s) :=
  lp_of_wp fun _ => wp_canReadLit

theorem lp_hasIdentRounded {Q : Bool → St → Prop} :
    lp hasIdentRounded e Q s = (0 < e.toks.length ∧ s.i ≤ e.toks.length → Q (idAt e s.i) s) :=
  lp_of_wp fun _ => by rw [wp_hasIdentRounded, and_assoc]

theorem lp_fnSig {Q : Bool → St → Prop} :
    lp fnSig e Q s = (0 < e.toks.length ∧ s.i ≤ e.toks.length → Q (fnAt e s.i) s) :=
  lp_of_wp fun _ => by rw [wp_fnSig, and_assoc]

theorem lp_uckIdent {t : Token} {Q : Bytes → St → Prop} :
    lp (uckIdent t) e Q s = ∀ b, t = .ident b → Q b s := by
  cases t <;> simp [uckIdent, lp_pure, lp_crash]

theorem lp_uckLit {t : Token} {Q : Lit → St → Prop} :
    lp (uckLit t) e Q s = ∀ b, t = .lit b → Q b s := by
  cases t <;> simp [uckLit, lp_pure, lp_crash]

theorem lp_assumeInit {o : Option α} {Q : α → St → Prop} :
    lp (assumeInit o) e Q s = ∀ a, o = some a → Q a s := by
  cases o <;> simp [assumeInit, lp_pure, lp_crash]

/-- Compute what holds if the parser succeeds. -/
macro "lps" : tactic => `(tactic| simp only [lp_pure, lp_bind, lp_ite, lp_fail, lp_crash, lp_okay, lp_poison,
  lp_poisonIf, lp_poisonIfNot, lp_aheadBy, lp_ahead, lp_aheadIf, lp_fuel, lp_hasCs, lp_backBy, lp_uckIdent,
  lp_uckLit, lp_assumeInit, lp_readAt, lp_read, lp_fwRead, lp_remaining, lp_exhausted, lp_notExhausted,
  lp_loopTt, lp_getCs, lp_cursorEq, lp_cursorIsIdent, lp_roundedEq, lp_canReadLit, lp_hasIdentRounded, lp_fnSig])

/-! ### It succeeds -/

/-- The parser succeeds with a value that satisfies `Q`. -/
def runs (p : P α) (e : Env) (Q : α → St → Prop) (s : St) : Prop :=
  match p e s with
  | .ok (a, s') => Q a s'
  | .err _ => False
  | .panic => False
  | .hang => False

theorem runs_iff {p : P α} {Q : α → St → Prop} : runs p e Q s ↔ ∃ a s', p e s = .ok (a, s') ∧ Q a s' := by
  unfold runs
  cases p e s with
  | ok r => exact ⟨fun h => ⟨_, _, rfl, h⟩, fun ⟨_, _, hr, h⟩ => by cases hr; exact h⟩
  | _ => simp

theorem runs_mono {p : P α} {Q R : α → St → Prop} (h : runs p e Q s) (hqr : ∀ a s', Q a s' → R a s') :
    runs p e R s := by
  unfold runs at *
  split at h <;> simp_all

theorem runs_eq {p : P α} {a : α} {s' : St} {R : α → St → Prop} (h : p e s = .ok (a, s')) (hr : R a s') :
    runs p e R s := by
  unfold runs
  rw [h]
  exact hr

theorem eq_of_runs {p : P α} {a : α} {s' : St} (h : runs p e (fun x y => x = a ∧ y = s') s) :
    p e s = .ok (a, s') := by
  obtain ⟨_, _, h', rfl, rfl⟩ := runs_iff.1 h
  exact h'

theorem runs_pure {a : α} {Q : α → St → Prop} : runs (pure a) e Q s = Q a s := rfl

theorem runs_bind {p : P α} {k : α → P β} {Q : β → St → Prop} :
    runs (p >>= k) e Q s = runs p e (fun a s' => runs (k a) e Q s') s := by
  show runs (P.seq p k) e Q s = _
  unfold runs P.seq
  cases p e s <;> rfl

theorem runs_ite {c : Prop} [Decidable c] {p q : P α} {Q : α → St → Prop} :
    runs (if c then p else q) e Q s = if c then runs p e Q s else runs q e Q s := by
  split <;> rfl

theorem runs_fail {x : QlErr} {Q : α → St → Prop} : runs (fail x) e Q s = False := rfl
theorem runs_crash {Q : α → St → Prop} : runs crash e Q s = False := rfl
theorem runs_okay {Q : Bool → St → Prop} : runs okay e Q s = Q s.f s := rfl
theorem runs_poisonIf {b : Bool} {Q : Unit → St → Prop} : runs (poisonIf b) e Q s = Q () ⟨s.i, s.f && !b⟩ := rfl
theorem runs_poisonIfNot {b : Bool} {Q : Unit → St → Prop} : runs (poisonIfNot b) e Q s = Q () ⟨s.i, s.f && b⟩ := by
  simp [poisonIfNot, runs_poisonIf]
theorem runs_aheadBy {n : Nat} {Q : Unit → St → Prop} : runs (aheadBy n) e Q s = Q () ⟨s.i + n, s.f⟩ := rfl
theorem runs_ahead {Q : Unit → St → Prop} : runs ahead e Q s = Q () ⟨s.i + 1, s.f⟩ := rfl
theorem runs_aheadIf {b : Bool} {Q : Unit → St → Prop} : runs (aheadIf b) e Q s = Q () ⟨s.i + b.toNat, s.f⟩ := rfl
theorem runs_fuel {Q : Nat → St → Prop} : runs fuel e Q s = Q (e.toks.length + 1) s := rfl
theorem runs_hasCs {Q : Bool → St → Prop} : runs hasCs e Q s = Q e.cs.isSome s := rfl
theorem runs_getCs {Q : Option String → St → Prop} : runs getCs e Q s = Q e.cs s := rfl

theorem runs_backBy {n : Nat} {Q : Unit → St → Prop} :
    runs (backBy n) e Q s = (n ≤ s.i ∧ Q () ⟨s.i - n, s.f⟩) := by
  unfold runs backBy
  by_cases h : n ≤ s.i <;> simp [h]

theorem runs_readAt {k : Nat} {Q : Token → St → Prop} :
    runs (readAt k) e Q s = ∃ t, e.toks[s.i + k]? = some t ∧ Q t s := by
  unfold runs readAt
  cases e.toks[s.i + k]? <;> simp

theorem runs_read {Q : Token → St → Prop} : runs read e Q s = ∃ t, e.toks[s.i]? = some t ∧ Q t s := by
  simp only [read, runs_readAt, Nat.add_zero]

theorem runs_fwRead {Q : Token → St → Prop} :
    runs fwRead e Q s = ∃ t, e.toks[s.i]? = some t ∧ Q t ⟨s.i + 1, s.f⟩ := by
  simp only [fwRead, runs_bind, runs_read, runs_ahead, runs_pure]

/-- From `wp` of a parser whose `wp` is known. -/
theorem runs_of_wp {p : P α} {A : Prop} {a : α} {Q : α → St → Prop} (hw : ∀ Q, wp p e Q s = (A ∧ Q a s)) :
    runs p e Q s = (A ∧ Q a s) := by
  have hq := hw Q
  have h0 := hw fun _ _ => False
  unfold wp at hq h0
  unfold runs
  cases hp : p e s with
  | err x =>
    rw [hp] at h0
    simp only [and_false] at h0
    exact absurd trivial (h0 ▸ id)
  | _ => rw [hp] at hq; exact hq

theorem runs_offR {k : Nat} {Q : Token → St → Prop} :
    runs (offR k) e Q s = ∃ t, e.toks[min (e.toks.length - 1) (s.i + k)]? = some t ∧ Q t s := by
  unfold runs offR
  cases e.toks[min (e.toks.length - 1) (s.i + k)]? <;> simp

theorem runs_remaining {Q : Nat → St → Prop} :
    runs remaining e Q s = (s.i ≤ e.toks.length ∧ Q (e.toks.length - s.i) s) :=
  runs_of_wp fun _ => wp_remaining

theorem runs_exhausted {Q : Bool → St → Prop} :
    runs exhausted e Q s = (s.i ≤ e.toks.length ∧ Q (decide (s.i = e.toks.length)) s) :=
  runs_of_wp fun _ => wp_exhausted

theorem runs_notExhausted {Q : Bool → St → Prop} :
    runs notExhausted e Q s = (s.i ≤ e.toks.length ∧ Q (decide (s.i < e.toks.length)) s) :=
  runs_of_wp fun _ => wp_notExhausted

theorem runs_loopTt {Q : Bool → St → Prop} :
    runs loopTt e Q s = (s.i ≤ e.toks.length ∧ Q (decide (s.i < e.toks.length) && s.f) s) :=
  runs_of_wp fun _ => wp_loopTt

theorem runs_cursorEq {t : Token} {Q : Bool → St → Prop} :
    runs (cursorEq t) e Q s = (s.i < e.toks.length ∧ Q (decide (e.toks[s.i]? = some t)) s) :=
  runs_of_wp fun _ => wp_cursorEq

theorem runs_cursorIsIdent {Q : Bool → St → Prop} :
    runs cursorIsIdent e Q s = ∃ t, e.toks[s.i]? = some t ∧ Q (isId t) s := by
  simp only [cursorIsIdent, runs_bind, runs_read, runs_pure]

theorem runs_roundedEq {t : Token} {Q : Bool → St → Prop} :
    runs (roundedEq t) e Q s = (0 < e.toks.length ∧ Q (decide (e.toks[s.i]? = some t)) s) :=
  runs_of_wp fun _ => wp_roundedEq

theorem runs_canReadLit {Q : Bool → St → Prop} :
    runs canReadLit e Q s = (0 < e.toks.length ∧ Q (litAt e s.i) s) :=
  runs_of_wp fun _ => wp_canReadLit

theorem runs_hasIdentRounded {Q : Bool → St → Prop} :
    runs hasIdentRounded e Q s = ((0 < e.toks.length ∧ s.i ≤ e.toks.length) ∧ Q (idAt e s.i) s) :=
  runs_of_wp fun _ => by rw [wp_hasIdentRounded, and_assoc]

theorem runs_fnSig {Q : Bool → St → Prop} :
    runs fnSig e Q s = ((0 < e.toks.length ∧ s.i ≤ e.toks.length) ∧ Q (fnAt e s.i) s) :=
  runs_of_wp fun _ => by rw [wp_fnSig, and_assoc]

theorem runs_uckIdent {t : Token} {Q : Bytes → St → Prop} :
    runs (uckIdent t) e Q s = ∃ b, t = .ident b ∧ Q b s := by
  cases t <;> simp [uckIdent, runs_pure, runs_crash]

theorem runs_uckLit {t : Token} {Q : Lit → St → Prop} :
    runs (uckLit t) e Q s = ∃ b, t = .lit b ∧ Q b s := by
  cases t <;> simp [uckLit, runs_pure, runs_crash]

theorem runs_assumeInit {o : Option α} {Q : α → St → Prop} :
    runs (assumeInit o) e Q s = ∃ a, o = some a ∧ Q a s := by
  cases o <;> simp [assumeInit, runs_pure, runs_crash]

/-! ### The tokens at a position -/

/-- The tokens from position `i` on begin with `ts`. -/
def At (e : Env) (i : Nat) (ts : List Token) : Prop := ts <+: e.toks.drop i

@[simp] theorem At_nil {i : Nat} : At e i [] := List.nil_prefix

theorem At_cons {i : Nat} {t : Token} {ts : List Token} :
    At e i (t :: ts) ↔ e.toks[i]? = some t ∧ At e (i + 1) ts := by
  unfold At
  by_cases h : i < e.toks.length
  · rw [List.drop_eq_getElem_cons h, List.cons_prefix_cons, List.getElem?_eq_getElem h]
    simp [eq_comm]
  · rw [List.drop_of_length_le (by omega), List.getElem?_eq_none (by omega)]
    simp

theorem At_append {i : Nat} {ts us : List Token} :
    At e i (ts ++ us) ↔ At e i ts ∧ At e (i + ts.length) us := by
  induction ts generalizing i with
  | nil => simp
  | cons t ts ih =>
    rw [List.cons_append, At_cons, At_cons, ih, List.length_cons, Nat.add_assoc, Nat.add_comm 1, and_assoc]

theorem At.le {i : Nat} {ts : List Token} (h : At e i ts) (hi : i ≤ e.toks.length) : i + ts.length ≤ e.toks.length := by
  have := h.length_le
  simp at this
  omega

theorem At.le' {i : Nat} {t : Token} {ts : List Token} (h : At e i (t :: ts)) : i + ts.length < e.toks.length := by
  have := h.length_le
  simp at this
  omega

/-- All the tokens. -/
theorem At_all {ts : List Token} (h : At e 0 ts) (hl : ts.length = e.toks.length) : e.toks = ts := by
  unfold At at h
  rw [List.drop_zero] at h
  exact (h.eq_of_length hl).symm

theorem At_self : At e 0 e.toks := by
  unfold At
  rw [List.drop_zero]
  exact List.prefix_refl _

end Verif.Ql
