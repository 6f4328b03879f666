import Verif.Ql.SafeDdl
/-!
The statements on rows never crash the parser, apart from the tokens named in the hypotheses.
-/
namespace Verif.Ql
open Verif.Lex (Token Symbol Keyword KwStmt KwMisc Lit ascii)
open Verif.Dml (cellOfLit AOp InsData Asn)

variable {e : Env}

/-! ### WHERE -/

/-- An operator of two tokens has an even code. -/
theorem opCode_even {a b : Token} (h : opCode a b % 2 = 0) (h0 : opCode a b ≠ 0) :
    a == .sym .opLogicalNot || a == .sym .opComparatorGt || a == .sym .opComparatorLt := by
  cases a with
  | sym x => cases x <;> simp [opCode] at h h0 ⊢
  | _ => simp [opCode] at h0

theorem tryRel_safe {s : St} (hi : s.i ≤ e.toks.length) : wp tryRel e (fun _ s' => Adv e s s') s := by
  simp only [tryRel, parseOperator]
  wps
  refine ⟨hi, fun _ => ⟨by simp, hi, id⟩, fun h3 => ⟨by omega, fun id hid => ⟨by omega, fun a ha => ?_⟩⟩⟩
  have key : ∀ opc : Nat, 0 < e.toks.length ∧
      (((s.f && isId id && opc != 0 && litAt e (s.i + 1 + (1 + (opc % 2 == 0).toNat))) = true →
        s.i + 1 + (1 + (opc % 2 == 0).toNat) < e.toks.length ∧
          ∀ t, e.toks[s.i + 1 + (1 + (opc % 2 == 0).toNat)]? = some t →
            ∃ l, t = .lit l ∧ ∃ b, id = .ident b ∧ Adv e s ⟨s.i + 1 + (1 + (opc % 2 == 0).toNat) + 1,
              s.f && isId id && opc != 0 && litAt e (s.i + 1 + (1 + (opc % 2 == 0).toNat))⟩) ∧
      (¬ (s.f && isId id && opc != 0 && litAt e (s.i + 1 + (1 + (opc % 2 == 0).toNat))) = true →
        Adv e s ⟨s.i + 1 + (1 + (opc % 2 == 0).toNat),
          s.f && isId id && opc != 0 && litAt e (s.i + 1 + (1 + (opc % 2 == 0).toNat))⟩)) := by
    intro opc
    generalize hx : (opc % 2 == 0) = x
    have hx' : x.toNat ≤ 1 := by cases x <;> simp
    refine ⟨by omega, fun h => ?_, fun h => ⟨by simp; omega, by simp; omega, by simp +contextual⟩⟩
    simp only [Bool.and_eq_true] at h
    obtain ⟨l, hl⟩ := litAt_iff.1 h.2
    obtain ⟨b, rfl⟩ := isId_iff.1 h.1.1.2
    have := lt_of_some hl
    exact ⟨this, fun t ht => ⟨l, by simp_all, b, rfl, by simp; omega, by simp; omega, fun _ => h.1.1.1⟩⟩
  exact ⟨fun _ => ⟨by omega, fun b _ => key _⟩, fun _ => key _⟩

theorem addClause_safe {c : Clauses} {x : Option (String × Rel)} {s : St} :
    wp (addClause c x) e (fun _ s' => s'.i = s.i ∧ (s'.f = true → s.f = true)) s := by
  unfold addClause
  split
  · wps
    exact ⟨trivial, by simp +contextual⟩
  · exact ⟨rfl, id⟩

theorem rounded_le {i : Nat} {t : Token} (hi : i ≤ e.toks.length) :
    i + (decide (e.toks[i]? = some t)).toNat ≤ e.toks.length := by
  by_cases h : e.toks[i]? = some t
  · have := lt_of_some h
    simp [h]; omega
  · simpa [h] using hi

theorem rounded2_le {i : Nat} {t u : Token} {f : Bool} (hi : i ≤ e.toks.length) :
    i + (f && (decide (e.toks[i]? = some t) || decide (e.toks[i]? = some u))).toNat ≤ e.toks.length := by
  by_cases h : e.toks[i]? = some t ∨ e.toks[i]? = some u
  · have : i < e.toks.length := by rcases h with h | h <;> exact lt_of_some h
    cases hx : (f && (decide (e.toks[i]? = some t) || decide (e.toks[i]? = some u))) <;> simp <;> omega
  · have : (f && (decide (e.toks[i]? = some t) || decide (e.toks[i]? = some u))) = false := by
      simp at h ⊢
      intro; exact h
    simpa [this] using hi

theorem whereLoop_safe : ∀ (n : Nat) (more : Bool) (c : Clauses) (s : St),
    1 ≤ n → (more = true → e.toks.length + 1 ≤ n + s.i) → s.i ≤ e.toks.length →
    wp (whereLoop n more c) e (fun _ s' => Adv e s s') s
  | 0, _, _, s, hn, _, hi => by omega
  | n + 1, more, c, s, _, hn, hi => by
    simp only [whereLoop]
    wps
    refine ⟨hi, fun hgo => ?_, fun _ => ⟨by simp, hi, id⟩⟩
    simp only [Bool.and_eq_true, decide_eq_true_eq] at hgo
    have hn := hn hgo.1
    refine wp_mono (tryRel_safe hi) ?_
    rintro x s1 h1
    have g1 := h1.ge
    have l1 := h1.le
    refine wp_mono addClause_safe ?_
    rintro c' s2 ⟨h2, h3⟩
    refine ⟨by omega, ?_⟩
    refine wp_mono (whereLoop_safe n _ _ _ (by omega) ?_ ?_) ?_
    · intro h
      simp [h]
      omega
    · exact rounded_le (by omega)
    · rintro _ s3 h
      have := h.ge
      simp at this
      exact ⟨by omega, h.le, fun hf => h1.flag (h3 (h.flag hf))⟩

theorem parseWhere_safe {s : St} (hi : s.i ≤ e.toks.length) : wp parseWhere e (fun _ s' => Adv e s s') s := by
  simp only [parseWhere]
  wps
  refine wp_mono (whereLoop_safe _ _ _ _ (by omega) (by simp) hi) ?_
  rintro c s1 h
  exact ⟨h.ge, h.le, fun hf => h.flag (by simp at hf; exact hf.1)⟩

/-! ### INSERT -/

theorem funcSub_safe {s : St} (h : fnAt e s.i = true) :
    wp funcSub e (fun _ s' => s'.i = s.i + 3 ∧ s'.f = s.f) s := by
  have hl := fnAt_lt h
  simp only [fnAt, Bool.and_eq_true] at h
  obtain ⟨b, hb⟩ := idAt_iff.1 h.1.1
  simp only [funcSub]
  wps
  exact ⟨by omega, fun t ht => ⟨b, by simp_all, rfl, rfl⟩⟩

/-- The last token does not open a list. -/
def NoTrailingList (e : Env) : Prop := e.toks[e.toks.length - 1]? ≠ some tOS

theorem NoTrailingList.lt {i : Nat} (h : NoTrailingList e) (hi : e.toks[i]? = some tOS) : i + 1 < e.toks.length := by
  have := lt_of_some hi
  by_cases hl : i + 1 < e.toks.length
  · exact hl
  · exfalso
    apply h
    rw [show e.toks.length - 1 = i by omega]
    exact hi

/-- The outcome of a list: if it is not refused and was not closed, then it is not cut off. -/
theorem parseList_safe (hl : NoTrailingList e) : ∀ (n : Nat) (stop : Bool) (ov prev : Option TagClass) (l : List Cell) (s : St),
    1 ≤ n → (stop = false → e.toks.length + 1 ≤ n + s.i) → s.i ≤ e.toks.length →
    wp (parseList n stop ov prev l) e (fun _ s' => Adv e s s') s
  | 0, _, _, _, _, s, hn, _, hi => by omega
  | n + 1, stop, ov, prev, l, s, _, hn, hi => by
    simp only [parseList]
    wps
    refine ⟨hi, fun hgo => ?_, fun _ => ⟨by simp, hi, id⟩⟩
    simp only [Bool.and_eq_true, decide_eq_true_eq, Bool.not_eq_true'] at hgo
    have hn := hn hgo.2
    refine ⟨hgo.1.1, fun t ht => ?_⟩
    have cont : ∀ (r : Option (Cell × Option TagClass)) (s1 : St), s.i ≤ s1.i → s1.i ≤ e.toks.length →
        (r.isSome = true → s.i + 1 ≤ s1.i) → 
        wp (match r with
          | none => pure (ov, l)
          | some (d, prev) => do
            poisonIfNot (sameAsHead d l)
            let nxComma ← roundedEq tComma
            let nxClose ← roundedEq tCS
            poisonIfNot (nxComma || nxClose)
            let ok ← okay
            aheadIf ok
            parseList n nxClose (some d.kind) prev (l ++ [d])) e (fun _ s' => Adv e s s') s1 := by
      intro r s1 h1 h2 h3
      match r with
      | none => exact ⟨h1, h2, fun _ => hgo.1.2⟩
      | some (d, prev) =>
        have h3 := h3 rfl
        wps
        refine ⟨by omega, by omega, ?_⟩
        refine wp_mono (parseList_safe hl n _ _ _ _ _ (by omega) (fun _ => by simp; omega) ?_) ?_
        · exact rounded2_le h2
        · rintro _ s2 h
          have := h.ge
          simp at this
          exact ⟨by omega, h.le, fun _ => hgo.1.2⟩
    refine wp_mono (Q := fun r s1 => s.i ≤ s1.i ∧ s1.i ≤ e.toks.length ∧ (r.isSome = true → s.i + 1 ≤ s1.i)) ?_
      (fun r s1 h => cont r s1 h.1 h.2.1 h.2.2)
    split
    · wps
      exact ⟨by simp, by omega, by simp⟩
    · have hlt := hl.lt ht
      wps
      refine ⟨hlt, ?_⟩
      refine wp_mono (parseList_safe hl n _ _ _ _ _ (by omega) (fun h => by simp [h]; omega) (rounded_le (by omega))) ?_
      rintro ⟨dscr, nl⟩ s1 h
      have h1 := h.ge
      have h2 := h.le
      simp only at h1
      exact ⟨by omega, h2, fun _ => by omega⟩
    · wps
      refine ⟨by omega, by omega, fun hsig => ?_, fun hsig => ?_⟩
      · have hx := fnAt_lt hsig
        refine wp_mono (funcSub_safe hsig) ?_
        rintro v s1 ⟨h1, h2⟩
        simp only at h1
        split
        · exact ⟨by omega, by omega, fun _ => by omega⟩
        · wps
          exact ⟨by omega, by omega, by simp⟩
      · exact ⟨by omega, by simp, by simp; omega, by simp⟩
    · wps
      exact ⟨by omega, by simp, by simp; omega, by simp⟩

theorem list_safe {s : St} (hl : NoTrailingList e) (hi : s.i < e.toks.length) :
    wp list e (fun _ s' => Adv e s s') s := by
  simp only [list]
  wps
  refine ⟨hi, ?_⟩
  refine wp_mono (parseList_safe hl _ _ _ _ _ _ (by omega) (by simp) (rounded_le (by omega))) ?_
  rintro ⟨dscr, nl⟩ s1 h
  have := h.ge
  simp only at this
  exact ⟨by omega, h.le, h.flag⟩

theorem value_safe {s : St} {t : Token} (hl : NoTrailingList e) (hi : s.i ≤ e.toks.length) (ht : e.toks[s.i - 1]? = some t) :
    wp (value t) e (fun _ s' => Adv e s s') s := by
  unfold value
  split
  · exact ⟨by simp, hi, id⟩
  · wps
    refine ⟨hi, fun hx => ?_, fun _ => ⟨by simp, hi, id⟩⟩
    simp only [decide_eq_true_eq] at hx
    exact wp_mono (list_safe hl hx) fun _ _ h => h
  · exact ⟨by simp, hi, id⟩
  · wps
    refine ⟨by have := lt_of_some ht; omega, hi, fun hsig => ?_, fun _ => ⟨by simp, hi, id⟩⟩
    have hx := fnAt_lt hsig
    refine wp_mono (funcSub_safe hsig) ?_
    rintro v s1 ⟨h1, h2⟩
    split <;> exact ⟨by omega, by omega, by simp [h2]⟩
  · exact ⟨by simp, hi, id⟩

theorem tupleLoop_safe (hl : NoTrailingList e) : ∀ (n : Nat) (stop : Bool) (l : List Cell) (s : St),
    1 ≤ n → (stop = false → e.toks.length + 1 ≤ n + s.i) → s.i ≤ e.toks.length →
    wp (tupleLoop n stop l) e (fun _ s' => Adv e s s') s
  | 0, _, _, s, hn, _, hi => by omega
  | n + 1, stop, l, s, _, hn, hi => by
    simp only [tupleLoop]
    wps
    refine ⟨hi, fun hgo => ?_, fun _ => ⟨by simp, hi, id⟩⟩
    simp only [Bool.and_eq_true, decide_eq_true_eq, Bool.not_eq_true'] at hgo
    have hn := hn hgo.2
    refine ⟨hgo.1.1, fun t ht => ?_⟩
    refine wp_mono (value_safe hl (by simp; omega) (by simpa using ht)) ?_
    rintro v s1 h
    have hg := h.ge
    have hle := h.le
    simp only at hg
    split
    · wps
      refine ⟨by omega, by omega, ?_⟩
      refine wp_mono (tupleLoop_safe hl n _ _ _ (by omega) (fun _ => by simp; omega) (rounded2_le hle)) ?_
      rintro _ s2 h2
      have := h2.ge
      simp at this
      exact ⟨by omega, h2.le, fun _ => hgo.1.2⟩
    · wps
      exact ⟨by simp; omega, hle, by simp⟩
    · wps
      exact ⟨by omega, by simp; omega, by simp; omega, by simp⟩

theorem tuple_safe {s : St} (hl : NoTrailingList e) (hi : s.i < e.toks.length) :
    wp tuple e (fun _ s' => Adv e s s') s := by
  simp only [tuple]
  wps
  refine ⟨hi, ?_⟩
  refine wp_mono (tupleLoop_safe hl _ _ _ _ (by omega) (by simp) (rounded_le (by omega))) ?_
  rintro nl s1 h
  have := h.ge
  simp only at this
  exact ⟨by omega, h.le, h.flag⟩

theorem mapLoop_safe (hl : NoTrailingList e) : ∀ (n : Nat) (stop : Bool) (l : List (String × Cell)) (s : St),
    1 ≤ n → (stop = false → e.toks.length + 1 ≤ n + s.i) → s.i ≤ e.toks.length →
    wp (mapLoop n stop l) e (fun _ s' => Adv e s s') s
  | 0, _, _, s, hn, _, hi => by omega
  | n + 1, stop, l, s, _, hn, hi => by
    simp only [mapLoop]
    wps
    refine ⟨hi, fun hgo => ?_, fun _ => ⟨by simp, hi, id⟩⟩
    simp only [Bool.and_eq_true, decide_eq_true_eq, Bool.not_eq_true'] at hgo
    have hn := hn hgo.2
    refine ⟨by omega, fun a ha => ⟨by omega, fun b hb => ⟨by omega, fun c hc => ?_⟩⟩⟩
    split
    · wps
      refine wp_mono (value_safe hl (by simp; omega) (by simpa using hc)) ?_
      rintro v s1 h
      have hg := h.ge
      have hle := h.le
      simp only at hg
      split
      · wps
        refine ⟨by omega, by omega, ?_⟩
        refine wp_mono (mapLoop_safe hl n _ _ _ (by omega) (fun _ => by simp; omega) (rounded2_le hle)) ?_
        rintro _ s2 h2
        have := h2.ge
        simp at this
        exact ⟨by omega, h2.le, fun _ => hgo.1.2⟩
      · wps
        exact ⟨by simp; omega, hle, by simp⟩
      · wps
        exact ⟨by omega, by simp; omega, by simp; omega, by simp⟩
    · wps
      exact ⟨by omega, by simp, by simp; omega, by simp⟩

theorem dataMap_safe {s : St} (hl : NoTrailingList e) (hi : s.i < e.toks.length) :
    wp dataMap e (fun _ s' => Adv e s s') s := by
  simp only [dataMap]
  wps
  refine ⟨hi, ?_⟩
  refine wp_mono (mapLoop_safe hl _ _ _ _ (by omega) (by simp) (rounded_le (by omega))) ?_
  rintro nl s1 h
  have := h.ge
  simp only at this
  exact ⟨by omega, h.le, h.flag⟩

theorem insertStmt_safe {s : St} (hl : NoTrailingList e) (hi : s.i ≤ e.toks.length) :
    wp insertStmt e (fun _ s' => s'.i ≤ e.toks.length) s := by
  simp only [insertStmt]
  wps
  refine ⟨hi, fun _ => trivial, fun h5 => ⟨by omega, ?_⟩⟩
  refine wp_mono (entityBuffered_safe (by simp; omega)) ?_
  rintro m s1 ⟨a1, a2, a3⟩
  simp only at a1 a2 a3
  refine ⟨by omega, fun t ht => ⟨by omega, ?_⟩⟩
  have key : ∀ (d : InsData) (s2 : St), Adv e ⟨s1.i + 1, s1.f⟩ s2 →
      (s2.f = true → ∃ x, some d = some x ∧ ∃ x, m = some x ∧ s2.i ≤ e.toks.length) ∧ (¬ s2.f = true → True) := by
    refine fun d s2 h => ⟨fun hf => ?_, fun _ => trivial⟩
    obtain ⟨x, hx⟩ := Option.isSome_iff_exists.1 (a3 (h.flag hf)).2
    exact ⟨d, rfl, x, hx, h.le⟩
  refine ⟨fun hc => ?_, fun _ => ⟨fun hc => ?_, fun _ => by simp⟩⟩
  · simp at hc
    exact wp_mono (tuple_safe hl (by simp; omega)) fun _ s2 h => key _ s2 h
  · simp at hc
    exact wp_mono (dataMap_safe hl (by simp; omega)) fun _ s2 h => key _ s2 h

/-! ### SELECT -/

theorem colLoop_safe : ∀ (n : Nat) (cols : List String) (s : St),
    e.toks.length + 1 ≤ n + s.i → s.i ≤ e.toks.length →
    wp (colLoop n cols) e (fun _ s' => Adv e s s' ∧ ∀ k, s.i ≤ k → e.toks[k]? = some (kw .from) → s'.i ≤ k) s
  | 0, _, s, hn, hi => by omega
  | n + 1, cols, s, hn, hi => by
    simp only [colLoop]
    wps
    refine ⟨hi, fun hgo => ?_, fun _ => ⟨⟨by simp, hi, id⟩, fun k h _ => h⟩⟩
    simp only [Bool.and_eq_true, decide_eq_true_eq] at hgo
    refine ⟨hgo.1, fun t ht => ?_⟩
    split
    · wps
      refine ⟨by omega, by omega, ?_⟩
      refine wp_mono (colLoop_safe n _ _ (by simp; omega) (rounded_le (by omega))) ?_
      rintro _ s2 ⟨h2, h3⟩
      have := h2.ge
      simp at this
      refine ⟨⟨by omega, h2.le, fun _ => hgo.2⟩, fun k hk hf => h3 k ?_ hf⟩
      simp only
      have h4 : k ≠ s.i := by rintro rfl; simp [ht] at hf
      by_cases hc : e.toks[s.i + 1]? = some tComma
      · have h5 : k ≠ s.i + 1 := by rintro rfl; simp [hc] at hf
        simp [hc]; omega
      · simp [hc]; omega
    · exact ⟨⟨by simp, hi, id⟩, fun k h _ => h⟩

theorem columns_safe {s : St} (hi : s.i < e.toks.length) :
    wp columns e (fun _ s' => Adv e s s' ∧ ∀ k, s.i ≤ k → e.toks[k]? = some (kw .from) → s'.i ≤ k) s := by
  simp only [columns]
  wps
  refine ⟨hi, fun hw => ⟨⟨by simp, rounded_le (by omega), id⟩, fun k h hf => ?_⟩, fun hw => ?_⟩
  · simp at hw
    have : k ≠ s.i := by rintro rfl; simp [hw] at hf
    simp [hw]; omega
  · simp at hw
    refine wp_mono (colLoop_safe _ _ _ (by simp) (rounded_le (by omega))) ?_
    rintro _ s2 ⟨h2, h3⟩
    have := h2.ge
    simp at this
    refine ⟨⟨by simp; omega, h2.le, fun hf => h2.flag (by simp at hf; exact hf.1)⟩, fun k h hf => h3 k ?_ hf⟩
    simpa [hw] using h

/-- Some `from` at or after a position has at least three tokens after it. -/
def FromThree (e : Env) (i : Nat) : Prop := ∃ k, i ≤ k ∧ e.toks[k]? = some (kw .from) ∧ k + 4 ≤ e.toks.length

/-- Every token after a `limit` is a literal. -/
def LimitLit (e : Env) : Prop := ∀ i, e.toks[i]? = some (kw .limit) → ∀ t, e.toks[i + 1]? = some t → isLit t = true

theorem selectStmt_safe {s : St} (hi : s.i ≤ e.toks.length) (hf : FromThree e s.i) :
    wp selectStmt e (fun _ s' => s'.i ≤ e.toks.length) s := by
  obtain ⟨k, hk1, hk2, hk3⟩ := hf
  simp only [selectStmt]
  wps
  refine ⟨hi, fun _ => trivial, fun h3 => ?_⟩
  refine wp_mono (columns_safe (by omega)) ?_
  rintro cols s1 ⟨h1, hk⟩
  have hk := hk k hk1 hk2
  refine ⟨h1.le, fun _ => trivial, fun h2 => ⟨by omega, ?_⟩⟩
  refine wp_mono (entityBuffered_safe (by simp; omega)) ?_
  rintro m s2 ⟨a1, a2, a3⟩
  simp only at a1 a2 a3
  have key : ∀ (s3 : St), Adv e s2 s3 →
      (s3.f = true → ∃ x, m = some x ∧ s3.i ≤ e.toks.length) ∧ (¬ s3.f = true → True) := by
    refine fun s3 h => ⟨fun hf => ?_, fun _ => trivial⟩
    obtain ⟨x, hx⟩ := Option.isSome_iff_exists.1 (a3 (h.flag hf)).2
    exact ⟨x, hx, h.le⟩
  refine ⟨by omega, fun hw => ?_, fun hw => key s2 ⟨by simp, by omega, id⟩⟩
  simp only [decide_eq_true_eq] at hw
  have := lt_of_some hw
  refine wp_mono (parseWhere_safe (by simp; omega)) fun c s3 h => key s3 ?_
  exact ⟨by have := h.ge; simp at this; omega, h.le, h.flag⟩

theorem selectAllStmt_safe {s : St} (hi : s.i ≤ e.toks.length) (hl : LimitLit e) :
    wp selectAllStmt e (fun _ s' => s'.i ≤ e.toks.length) s := by
  simp only [selectAllStmt]
  wps
  refine ⟨hi, fun _ => trivial, fun h3 => ?_⟩
  refine wp_mono (columns_safe (by omega)) ?_
  rintro cols s1 ⟨h1, -⟩
  refine ⟨h1.le, fun _ => trivial, fun h2 => ⟨by omega, ?_⟩⟩
  refine wp_mono (entityBuffered_safe (by simp; omega)) ?_
  rintro m s2 ⟨a1, a2, a3⟩
  simp only at a1 a2 a3
  refine ⟨by omega, ?_⟩
  have hle : s2.i + (s2.f && decide (e.toks[s2.i]? = some (kw .limit))).toNat ≤ e.toks.length := by
    by_cases hw : e.toks[s2.i]? = some (kw .limit)
    · have := lt_of_some hw
      cases hf : s2.f <;> simp [hw] <;> omega
    · simp [hw]; omega
  refine ⟨hle, fun hok => ?_, fun _ => trivial⟩
  simp only [Bool.and_eq_true, decide_eq_true_eq, Bool.not_eq_true', decide_eq_false_iff_not] at hok
  obtain ⟨⟨hf, hw⟩, hx⟩ := hok
  simp only [hf, hw, decide_true, Bool.and_self, Bool.toNat_true] at hx hle ⊢
  refine ⟨by omega, fun t ht => ?_⟩
  obtain ⟨l, rfl⟩ := isLit_iff.1 (hl _ hw _ ht)
  refine ⟨l, rfl, ?_⟩
  split
  · wps
    obtain ⟨x, hx⟩ := Option.isSome_iff_exists.1 (a3 hf).2
    exact ⟨x, hx, by omega⟩
  · trivial

/-! ### UPDATE and DELETE -/

theorem assignment_safe {as : List Asn} {s : St} (hi : s.i ≤ e.toks.length) :
    wp (assignment as) e (fun _ s' => Adv e s s' ∧ (s'.f = true → s.i + 3 ≤ s'.i)) s := by
  simp only [assignment]
  wps
  refine ⟨hi, fun _ => ⟨⟨by simp, hi, by simp⟩, by simp⟩, fun h3 => ⟨by omega, fun lhs hl => ⟨by omega, fun t ht => ?_⟩⟩⟩
  generalize hc : (t == tEq).toNat + (t == Token.sym .opArithmeticAdd).toNat * 2
      + (t == Token.sym .opArithmeticSub).toNat * 3 + (t == Token.sym .opArithmeticMul).toNat * 4
      + (t == Token.sym .opArithmeticDiv).toNat * 5 = code
  have hc5 : code ≤ 5 := by
    subst hc
    cases t with
    | sym x => cases x <;> decide
    | _ => exact Nat.zero_le 5
  refine ⟨fun h => by omega, fun _ => ⟨by omega, by omega, ?_⟩⟩
  generalize hd : (code != 1 && decide (e.toks[s.i + 1 + 1]? = some tEq)) = d
  have hd1 : d.toNat ≤ 1 := by cases d <;> simp
  refine ⟨fun hf => ?_, fun hf => ⟨⟨by simp; omega, by simp; omega, by simp +contextual⟩, ?_⟩⟩
  · simp only [Bool.and_eq_true] at hf
    obtain ⟨l, hlit⟩ := litAt_iff.1 hf.2
    obtain ⟨b, rfl⟩ := isId_iff.1 hf.1.1.1.2
    have hlt := lt_of_some hlit
    refine ⟨hlt, fun t' ht' => ⟨l, by simp_all, b, rfl, ?_⟩⟩
    have : operator[code]? = some (operator[code]'(by simp [operator]; omega)) :=
      List.getElem?_eq_getElem _
    rw [this]
    wps
    exact ⟨⟨by simp; omega, by simp; omega, fun _ => hf.1.1.1.1⟩, fun _ => by simp; try omega⟩
  · intro h
    exact absurd h hf

theorem assignLoop_safe : ∀ (n : Nat) (w : Bool) (as : List Asn) (s : St),
    1 ≤ n → (s.f = true → w = false → e.toks.length + 1 ≤ n + s.i) → s.i ≤ e.toks.length →
    (w = true → e.toks[s.i]? = some (kw .where)) →
    wp (assignLoop n w as) e (fun r s' => Adv e s s' ∧ (r.1 = true → e.toks[s'.i]? = some (kw .where))) s
  | 0, _, _, s, hn, _, hi, _ => by omega
  | n + 1, w, as, s, _, hn, hi, hw => by
    simp only [assignLoop]
    wps
    refine ⟨hi, fun hgo => ?_, fun _ => ⟨⟨by simp, hi, id⟩, hw⟩⟩
    simp only [Bool.and_eq_true, decide_eq_true_eq, Bool.not_eq_true'] at hgo
    have hn := hn hgo.1.2 hgo.2
    refine wp_mono (assignment_safe hi) ?_
    rintro as' s1 ⟨h1, h2⟩
    have hle := h1.le
    have hge := h1.ge
    refine ⟨by omega, by omega, ?_⟩
    refine wp_mono (assignLoop_safe n _ _ _ (by omega) ?_ (rounded_le hle) ?_) ?_
    · intro hf _
      simp at hf
      have := h2 hf.1
      simp
      omega
    · intro h
      simp only [decide_eq_true_eq] at h
      simp [h]
    · rintro r s2 ⟨h3, h4⟩
      have := h3.ge
      simp at this
      exact ⟨⟨by omega, h3.le, fun _ => hgo.1.2⟩, h4⟩

theorem updateStmt_safe {s : St} (hi : s.i ≤ e.toks.length) :
    wp updateStmt e (fun _ s' => s'.i ≤ e.toks.length) s := by
  simp only [updateStmt]
  wps
  refine ⟨hi, fun _ => trivial, fun h3 => ?_⟩
  refine wp_mono (entityBuffered_safe (by omega)) ?_
  rintro m s1 ⟨a1, a2, a3⟩
  refine ⟨by omega, fun h => by omega, fun _ => ⟨by omega, ?_⟩⟩
  refine wp_mono (assignLoop_safe _ _ _ _ (by omega) (by simp) (by simp; omega) (by simp)) ?_
  rintro ⟨w, as⟩ s2 ⟨h2, hw⟩
  wps
  have hle : s2.i + (s2.f && w).toNat ≤ e.toks.length := by
    have := h2.le
    cases w
    · simpa using h2.le
    · have := lt_of_some (hw rfl)
      cases s2.f <;> simp <;> omega
  refine wp_mono (parseWhere_safe hle) ?_
  rintro c s3 h
  refine ⟨fun hf => ?_, fun _ => trivial⟩
  have := h.flag hf
  simp at this
  have := h2.flag this.1
  simp at this
  obtain ⟨x, hx⟩ := Option.isSome_iff_exists.1 (a3 this.1).2
  exact ⟨x, hx, h.le⟩

theorem deleteStmt_safe {s : St} (hi : s.i ≤ e.toks.length) :
    wp deleteStmt e (fun _ s' => s'.i ≤ e.toks.length) s := by
  simp only [deleteStmt]
  wps
  refine ⟨hi, fun _ => trivial, fun h3 => ⟨by omega, ?_⟩⟩
  refine wp_mono (entityBuffered_safe (by simp; omega)) ?_
  rintro m s1 ⟨a1, a2, a3⟩
  simp only at a1 a2 a3
  refine ⟨by omega, ?_⟩
  refine wp_mono (parseWhere_safe (by simp; omega)) ?_
  rintro c s3 h
  refine ⟨fun hf => ?_, fun _ => trivial⟩
  have := h.flag hf
  simp at this
  obtain ⟨x, hx⟩ := Option.isSome_iff_exists.1 (a3 this.1).2
  exact ⟨x, hx, h.le⟩

end Verif.Ql
