import Verif.Ql.Safe
/-!
The statements on spaces, models and users never crash the parser, whatever the tokens; `CREATE MODEL` and
`ALTER MODEL` do only for the tokens named in the hypotheses.
-/
namespace Verif.Ql
open Verif.Lex (Token Symbol Keyword KwStmt KwMisc Lit)
open Verif.Enc (DVal Dict)

variable {e : Env}

/-- The cursor moves forward, stays within the tokens, and the flag is not raised. -/
structure Adv (e : Env) (s s' : St) : Prop where
  ge : s.i ≤ s'.i
  le : s'.i ≤ e.toks.length
  flag : s'.f = true → s.f = true

/-- Compute weakest preconditions. -/
macro "wps" : tactic => `(tactic| simp only [wp_pure, wp_bind, wp_ite, wp_fail, wp_crash, wp_okay, wp_poison,
  wp_poisonIf, wp_poisonIfNot, wp_aheadBy, wp_ahead, wp_aheadIf, wp_fuel, wp_hasCs, wp_backBy, wp_uckIdent,
  wp_uckLit, wp_assumeInit, wp_readAt, wp_read, wp_fwRead, wp_remaining, wp_exhausted, wp_notExhausted,
  wp_loopTt, wp_getCs, wp_cursorEq, wp_cursorIsIdent, wp_roundedEq, wp_canReadLit, wp_hasIdentRounded, wp_fnSig])

theorem rfoldDict_safe {m : DFold} {s : St} (hi : s.i ≤ e.toks.length) (hm : m = .ob ∨ m = .cbOrIdent) :
    wp (rfoldDict m) e (fun _ s' => Adv e s s') s := by
  simp only [rfoldDict]
  wps
  refine wp_mono (rfold_safe _ _ _ _ _ _ (by omega) hi (by rcases hm with rfl | rfl <;> simp)
    (by rcases hm with rfl | rfl <;> simp)) ?_
  rintro ⟨r, d⟩ s' h
  exact ⟨h.ge, h.le, h.flag⟩

theorem wp_offR_weak {k : Nat} {s : St} {Q : Token → St → Prop} (h0 : 0 < e.toks.length) (h : ∀ t, Q t s) :
    wp (offR k) e Q s := by
  rw [wp_offR]
  exact ⟨h0, fun t _ => h t⟩

theorem sigIfNotExists_safe {s : St} (h0 : 0 < e.toks.length) (hi : s.i ≤ e.toks.length) :
    wp sigIfNotExists e (fun r s' => s' = s ∧ (r = true → s.i + 3 ≤ e.toks.length)) s := by
  simp only [sigIfNotExists, wp_bind]
  refine wp_offR_weak h0 fun a => wp_offR_weak h0 fun b => wp_offR_weak h0 fun c => ?_
  wps
  exact ⟨hi, trivial, fun h => by simp at h; omega⟩

theorem createSpace_safe {s : St} (hi : s.i ≤ e.toks.length) :
    wp createSpace e (fun _ s' => s'.i ≤ e.toks.length) s := by
  simp only [createSpace]
  wps
  refine ⟨hi, fun _ => trivial, fun h => ?_⟩
  refine wp_mono (sigIfNotExists_safe (by omega) hi) ?_
  rintro ine s' ⟨rfl, h3⟩
  have h4 : s'.i + ine.toNat * 3 ≤ e.toks.length := by
    cases ine
    · simpa using hi
    · simpa using h3 rfl
  refine ⟨h4, fun _ => trivial, fun hx => ?_⟩
  simp only [decide_eq_true_eq] at hx
  refine ⟨by omega, fun t ht => ⟨by omega, ?_, ?_⟩⟩
  · omega
  · have key : ∀ (i : Nat) (f : Bool), i ≤ e.toks.length → (f = true → isId t = true) →
        (f = true → ∃ b, t = .ident b ∧ i ≤ e.toks.length) ∧ (¬ f = true → True) := by
      intro i f h1 h2
      exact ⟨fun h => by obtain ⟨b, hb⟩ := isId_iff.1 (h2 h); exact ⟨b, hb, h1⟩, fun _ => trivial⟩
    refine ⟨fun hw => ?_, fun hw => ?_⟩
    · simp only [Bool.and_eq_true, decide_eq_true_eq] at hw
      have := lt_of_some hw.1
      refine wp_mono (rfoldDict_safe ?_ (Or.inl rfl)) ?_
      · simp [hw.1]; omega
      · rintro d s1 h
        refine key s1.i s1.f h.le fun hf => ?_
        have := h.flag hf
        simp at this
        exact this.1.2
    · refine key _ _ ?_ ?_
      · skip
        by_cases hw' : e.toks[s'.i + ine.toNat * 3 + 1]? = some (kw .with)
        · have := lt_of_some hw'
          simp [hw']; omega
        · simp [hw']; omega
      · simp +contextual

theorem entityFromTokens_safe {s : St} {a c : Bytes} {Q : String × String → St → Prop}
    (ha : e.toks[s.i]? = some (.ident a)) (hc : e.toks[s.i + 2]? = some (.ident c))
    (h : Q (nm a, nm c) ⟨s.i + 3, s.f⟩) : wp entityFromTokens e Q s := by
  have := lt_of_some hc
  simp only [entityFromTokens]
  wps
  refine ⟨by omega, fun t ht => ⟨a, by simp_all, by omega, fun t' ht' => ⟨c, by simp_all, h⟩⟩⟩

theorem entityFromCs_safe {s : St} {a : Bytes} {Q : String × String → St → Prop}
    (ha : e.toks[s.i]? = some (.ident a)) (hcs : e.cs.isSome = true)
    (h : ∀ r, Q r ⟨s.i + 1, s.f⟩) : wp entityFromCs e Q s := by
  have := lt_of_some ha
  obtain ⟨c, hc⟩ := Option.isSome_iff_exists.1 hcs
  simp only [entityFromCs]
  wps
  refine ⟨by omega, fun t ht => ⟨a, by simp_all, ?_⟩⟩
  exact ⟨c, hc, h _⟩

theorem entityBuffered_safe {s : St} (hi : s.i + 3 ≤ e.toks.length) :
    wp entityBuffered e (fun r s' => s.i ≤ s'.i ∧ s'.i ≤ s.i + 3 ∧ (s'.f = true → s.f = true ∧ r.isSome = true)) s := by
  simp only [entityBuffered]
  wps
  refine ⟨by omega, fun a ha => ⟨by omega, fun b hb => ⟨by omega, fun c hc => ⟨fun h => ?_, fun h => ⟨fun h => ?_, fun h => ?_⟩⟩⟩⟩⟩
  · simp only [Bool.and_eq_true, isId_iff] at h
    obtain ⟨⟨⟨a', rfl⟩, _⟩, c', rfl⟩ := h
    exact entityFromTokens_safe ha hc ⟨by simp, by simp, by simp⟩
  · simp only [Bool.and_eq_true, isId_iff] at h
    obtain ⟨⟨a', rfl⟩, hcs⟩ := h
    exact entityFromCs_safe ha hcs (fun r => ⟨by simp, by simp, by simp⟩)
  · exact ⟨by simp, by simp, by simp⟩

theorem entityRef_safe {s : St} (h0 : 0 < e.toks.length)
    (hi : s.i < e.toks.length ∨ idAt e (e.toks.length - 1) = false) :
    wp entityRef e (fun _ s' => s.i < s'.i ∧ s'.i ≤ s.i + 3 ∧ s'.i ≤ e.toks.length ∧ s'.f = s.f ∧ bal e s'.i = bal e s.i) s := by
  simp only [entityRef]
  wps
  rw [wp_offR]
  refine ⟨h0, fun a ha => ?_⟩
  rw [wp_offR]
  refine ⟨h0, fun b hb => ?_⟩
  rw [wp_offR]
  refine ⟨h0, fun c hc => ?_⟩
  have hid : isId a = true → s.i < e.toks.length := by
    intro h
    rcases hi with hi | hi
    · exact hi
    · by_cases hlt : s.i < e.toks.length
      · exact hlt
      · have : min (e.toks.length - 1) (s.i + 0) = e.toks.length - 1 := by omega
        rw [this] at ha
        simp [idAt, ha, h] at hi
  refine ⟨fun h => ?_, fun h => ⟨fun h => ?_, fun h => trivial⟩⟩
  · simp only [Bool.and_eq_true, isId_iff, beq_iff_eq] at h
    obtain ⟨⟨⟨a', rfl⟩, rfl⟩, c', rfl⟩ := h
    have h1 := hid rfl
    have h2 : s.i + 2 < e.toks.length := by
      by_cases hx : s.i + 2 < e.toks.length
      · exact hx
      · have x1 : min (e.toks.length - 1) (s.i + 1) = e.toks.length - 1 := by omega
        have x2 : min (e.toks.length - 1) (s.i + 2) = e.toks.length - 1 := by omega
        rw [x1] at hb
        rw [x2, hb] at hc
        simp at hc
    rw [show min (e.toks.length - 1) (s.i + 0) = s.i by omega] at ha
    rw [show min (e.toks.length - 1) (s.i + 1) = s.i + 1 by omega] at hb
    rw [show min (e.toks.length - 1) (s.i + 2) = s.i + 2 by omega] at hc
    have b1 := bal_succ ha
    have b2 := bal_succ hb
    have b3 := bal_succ hc
    simp only [br, Nat.add_assoc, Nat.reduceAdd] at b1 b2 b3
    exact entityFromTokens_safe ha hc ⟨by simp, by simp, by simp; omega, rfl, by simp only; omega⟩
  · simp only [Bool.and_eq_true, isId_iff] at h
    obtain ⟨⟨a', rfl⟩, hcs⟩ := h
    have h1 := hid rfl
    rw [show min (e.toks.length - 1) (s.i + 0) = s.i by omega] at ha
    have b1 := bal_succ ha
    simp only [br] at b1
    exact entityFromCs_safe ha hcs (fun r => ⟨by simp, by simp, by simp; omega, rfl, by simp only; omega⟩)

theorem rfoldLayers_safe {s : St} (hi : s.i ≤ e.toks.length) :
    wp rfoldLayers e (fun _ s' => LayersPost e .beginIdent s s') s := by
  simp only [rfoldLayers]
  wps
  exact layers_safe _ _ _ _ _ _ (by omega) hi (by simp) (by simp)

/-- The token before the last one is not `primary` or `null`. -/
def NoTrailingMark (e : Env) : Prop :=
  ∀ t, e.toks[e.toks.length - 2]? = some t → t ≠ kw .primary ∧ t ≠ kw .null

theorem fieldSpec_safe {s : St} (hi : s.i ≤ e.toks.length) (hm : NoTrailingMark e) :
    wp fieldSpec e (fun _ s' => s.i + 2 ≤ s'.i ∧ s'.i ≤ e.toks.length) s := by
  simp only [fieldSpec]
  wps
  refine ⟨hi, fun _ => trivial, fun h2 => ⟨by omega, ?_⟩⟩
  generalize hp : decide (e.toks[s.i]? = some (kw .primary)) = p
  have hlen : s.i + p.toNat < e.toks.length := by cases p <;> simp <;> omega
  refine ⟨hlen, ?_⟩
  generalize hq : decide (e.toks[s.i + p.toNat]? = some (kw .null)) = q
  have hlen2 : s.i + p.toNat + q.toNat + 1 < e.toks.length := by
    have m1 : ∀ j t, e.toks[j]? = some t → (t = kw .primary ∨ t = kw .null) → j + 2 ≠ e.toks.length := by
      intro j t hj ht hl
      have := hm t (by rw [← hl]; simpa using hj)
      rcases ht with rfl | rfl <;> simp at this
    cases p <;> cases q <;> simp at hp hq ⊢
    · omega
    · have := m1 _ _ hq (Or.inr rfl); omega
    · have := m1 _ _ hp (Or.inl rfl); omega
    · have a := m1 _ _ hp (Or.inl rfl); have b := m1 _ _ hq (Or.inr rfl); omega
  refine ⟨by omega, fun a _ => ⟨hlen2, fun b _ => ?_⟩⟩
  split
  · wps
    refine wp_mono (rfoldLayers_safe (by simp; omega)) ?_
    rintro ls s' h
    have := h.ge
    simp at this
    exact ⟨fun _ => ⟨by omega, h.le⟩, fun _ => trivial⟩
  · trivial

theorem fieldLoop_safe (hm : NoTrailingMark e) : ∀ (n : Nat) (stop : Bool) (fs : List Gns.FieldSpec) (s : St),
    e.toks.length + 1 ≤ n + s.i → s.i ≤ e.toks.length →
    wp (fieldLoop n stop fs) e (fun _ s' => s'.i ≤ e.toks.length ∧ (s'.f = true → s.f = true)) s
  | 0, _, _, s, hn, hi => by omega
  | n + 1, stop, fs, s, hn, hi => by
    simp only [fieldLoop]
    wps
    refine ⟨hi, fun hgo => ?_, fun _ => ⟨hi, by simp +contextual⟩⟩
    simp only [Bool.and_eq_true, decide_eq_true_eq] at hgo
    refine wp_mono (fieldSpec_safe hi hm) ?_
    rintro f s1 ⟨h1, h2⟩
    refine ⟨by omega, by omega, ?_⟩
    generalize hx : (decide (e.toks[s1.i]? = some tCP) || decide (e.toks[s1.i]? = some tComma)) = x
    have hx1 : s1.i + x.toNat ≤ e.toks.length := by
      cases x
      · simpa using h2
      · simp at hx
        rcases hx with hx | hx <;> have := lt_of_some hx <;> simp <;> omega
    refine wp_mono (fieldLoop_safe hm n _ _ _ (by simp; omega) hx1) ?_
    rintro _ s2 ⟨h3, _⟩
    exact ⟨h3, fun _ => hgo.1.2⟩

theorem createModel_safe {s : St} (hi : s.i ≤ e.toks.length) (hm : NoTrailingMark e) :
    wp createModel e (fun _ s' => s'.i ≤ e.toks.length) s := by
  simp only [createModel]
  wps
  refine ⟨hi, fun _ => trivial, fun h => ?_⟩
  refine wp_mono (sigIfNotExists_safe (by omega) hi) ?_
  rintro ine s' ⟨rfl, -⟩
  have h4 : ine.toNat ≤ 1 := by cases ine <;> simp
  refine wp_mono (entityBuffered_safe (by simp; omega)) ?_
  rintro m s1 ⟨a1, a2, a3⟩
  simp only at a1 a2 a3
  refine ⟨by omega, ?_⟩
  refine wp_mono (fieldLoop_safe hm _ _ _ _ (by simp) (by simp; omega)) ?_
  rintro fs s2 ⟨b1, b2⟩
  have key : ∀ s3 : St, s3.i ≤ e.toks.length → (s3.f = true → s2.f = true) →
      (s3.f = true → ∃ a, m = some a ∧ s3.i ≤ e.toks.length) ∧ (¬ s3.f = true → True) := by
    refine fun s3 h1 h2 => ⟨fun h => ?_, fun _ => trivial⟩
    have := b2 (h2 h)
    simp at this
    obtain ⟨x, hx⟩ := Option.isSome_iff_exists.1 (a3 this.1).2
    exact ⟨x, hx, h1⟩
  refine ⟨by omega, fun hw => ?_, fun hw => key s2 b1 id⟩
  simp only [decide_eq_true_eq] at hw
  have := lt_of_some hw
  refine wp_mono (rfoldDict_safe (by simp; omega) (Or.inl rfl)) ?_
  rintro d s3 hd
  exact key s3 hd.le hd.flag

theorem alterSpace_safe {s : St} (hi : s.i ≤ e.toks.length) :
    wp alterSpace e (fun _ s' => s'.i ≤ e.toks.length) s := by
  simp only [alterSpace]
  wps
  refine ⟨hi, fun _ => trivial, fun h => ⟨by omega, fun t ht => ⟨by omega, by omega, fun _ => trivial, fun hf => ?_⟩⟩⟩
  simp at hf
  obtain ⟨b, hb⟩ := isId_iff.1 hf.1.1.2
  refine ⟨b, hb, wp_mono (rfoldDict_safe (by simp; omega) (Or.inr rfl)) ?_⟩
  rintro d s1 h1
  exact ⟨fun _ => h1.le, fun _ => trivial⟩

theorem removeLoop_safe : ∀ (n : Nat) (stop : Bool) (cols : List String) (s : St),
    e.toks.length + 1 ≤ n + s.i → s.i ≤ e.toks.length →
    wp (removeLoop n stop cols) e (fun _ s' => s'.i ≤ e.toks.length) s
  | 0, _, _, s, hn, hi => by omega
  | n + 1, stop, fs, s, hn, hi => by
    simp only [removeLoop]
    wps
    refine ⟨hi, fun hgo => ?_, fun _ => ⟨fun _ => hi, fun _ => trivial⟩⟩
    simp only [Bool.and_eq_true, decide_eq_true_eq] at hgo
    refine ⟨by omega, fun t _ => ?_⟩
    split
    · wps
      refine ⟨by omega, by omega, ?_⟩
      refine removeLoop_safe n _ _ _ (by simp; omega) ?_
      simp
      generalize hx : (decide (e.toks[s.i + 1]? = some tComma) || decide (e.toks[s.i + 1]? = some tCP)) = x
      cases x
      · simp; omega
      · simp at hx
        rcases hx with hx | hx <;> have := lt_of_some hx <;> simp [hgo] <;> omega
    · wps
      exact ⟨by omega, trivial⟩

theorem alterRemove_safe {s : St} (hi : s.i ≤ e.toks.length) :
    wp alterRemove e (fun _ s' => s'.i ≤ e.toks.length) s := by
  simp only [alterRemove]
  wps
  refine ⟨hi, fun _ => trivial, fun h => ?_⟩
  simp only [decide_eq_true_eq] at h
  refine ⟨by omega, fun t _ => ?_⟩
  split
  · wps; omega
  · wps
    refine wp_mono (removeLoop_safe _ _ _ _ (by simp) (by simp; omega)) ?_
    exact fun _ _ h => h
  · trivial

/-- The braces are balanced and the token before the last one is not `type`. -/
structure ClosedTypes (e : Env) : Prop where
  balanced : bal e e.toks.length = 0
  type : e.toks[e.toks.length - 2]? ≠ some (kw .type)

theorem expandedField_safe {s : St} (hi : s.i ≤ e.toks.length) (hc : ClosedTypes e) (hb : bal e s.i = 0) :
    wp expandedField e (fun _ s' => s.i + 1 ≤ s'.i ∧ s'.i ≤ e.toks.length ∧ s'.f = true ∧ bal e s'.i = 0) s := by
  simp only [expandedField]
  wps
  refine ⟨hi, fun _ => trivial, fun h6 => ⟨by omega, fun name hn => ⟨by omega, ?_⟩⟩⟩
  generalize hf2 : (s.f && isId name && decide (e.toks[s.i + 1]? = some tOB)) = f2
  have hb2 : f2 = true → isId name = true ∧ bal e (s.i + 1 + 1) = 1 := by
    intro h
    subst h
    simp at hf2
    have b1 := bal_succ hn
    have b2 := bal_succ hf2.2
    obtain ⟨b, rfl⟩ := isId_iff.1 hf2.1.2
    simp [br] at b1 b2
    exact ⟨rfl, by omega⟩
  refine wp_mono (rfold_safe _ _ _ _ _ _ (by simp) (by simp; omega) (by simp) (by simp)) ?_
  rintro ⟨more, props⟩ s1 h1
  have hge := h1.ge
  have hle := h1.le
  simp only at hge
  wps
  refine ⟨fun hmore => ⟨hle, fun _ => trivial, fun hx => ?_⟩, fun hmore => ⟨fun hf => ?_, fun _ => trivial⟩⟩
  · simp only [decide_eq_true_eq] at hx
    have hf1 := h1.bp hmore
    have hb1 := h1.done hf1
    have hd2 := hb2 (h1.flag hf1)
    have hty := h1.last hmore
    simp [hmore, DFold.op] at hb1
    refine ⟨by omega, ?_⟩
    generalize hcl : decide (e.toks[s1.i]? = some tColon) = c
    refine wp_mono (rfoldLayers_safe (by simp; omega)) ?_
    rintro ls s2 h2
    have hge2 := h2.ge
    have hle2 := h2.le
    simp only at hge2
    have hlt : s2.i < e.toks.length := by
      by_cases hl : s2.i < e.toks.length
      · exact hl
      · exfalso
        have hl : s2.i = e.toks.length := by omega
        cases c with
        | false =>
          have := h2.off (by simp)
          simp only at this
          refine hc.type ?_
          rw [show e.toks.length - 2 = s1.i - 1 by omega]
          exact hty
        | true =>
          simp at hcl
          have b1 := bal_succ hcl
          have b2 := h2.cut hl
          have b3 := hc.balanced
          rw [hl] at b2
          simp [br, LFold.op] at b1 b2
          omega
    refine ⟨hlt, fun t ht => ?_⟩
    have bt := bal_succ ht
    have hd := h2.done
    have hs2 : s2.f = true → bal e s2.i = 1 := by
      intro h
      have a := hd h
      have b := h2.flag h
      simp at b
      have hcol : e.toks[s1.i]? = some tColon := by simpa [b.2] using hcl
      have b1 := bal_succ hcol
      simp [br, LFold.op] at b1 a
      omega
    obtain ⟨nb, rfl⟩ := isId_iff.1 hd2.1
    split
    · wps
      refine wp_mono (rfold_safe _ _ _ _ _ _ (by simp) (by simp; omega) (by simp) (by simp)) ?_
      rintro ⟨r, props'⟩ s3 h3
      have hge3 := h3.ge
      simp only at hge3
      refine ⟨fun hok => ⟨nb, rfl, by omega, h3.le, hok, ?_⟩, fun _ => trivial⟩
      have a := h3.done hok
      have b := hs2 (h3.flag hok)
      have c : r = false := h3.plain rfl
      simp [br, DFold.op, c] at a bt
      omega
    · wps
      refine ⟨fun hok => ⟨nb, rfl, by omega, by omega, hok, ?_⟩, fun _ => trivial⟩
      have b := hs2 hok
      simp [br] at bt
      omega
    · wps
  · have a := h1.done hf
    have b := hb2 (h1.flag hf)
    obtain ⟨nb, rfl⟩ := isId_iff.1 b.1
    have hmore : more = false := by simpa using hmore
    simp [hmore, DFold.op] at a
    exact ⟨nb, rfl, by omega, hle, hf, by omega⟩

theorem expandedLoop_safe (hc : ClosedTypes e) : ∀ (n : Nat) (stop : Bool) (cols : List Gns.Expanded) (s : St),
    e.toks.length + 1 ≤ n + s.i → s.i ≤ e.toks.length → (s.f = true → bal e s.i = 0) →
    wp (expandedLoop n stop cols) e (fun _ s' => s'.i ≤ e.toks.length) s
  | 0, _, _, s, hn, hi, _ => by omega
  | n + 1, stop, fs, s, hn, hi, hb => by
    simp only [expandedLoop]
    wps
    refine ⟨hi, fun hgo => ?_, fun _ => ⟨fun _ => hi, fun _ => trivial⟩⟩
    simp only [Bool.and_eq_true, decide_eq_true_eq] at hgo
    refine ⟨by omega, fun t _ => ⟨fun _ => ?_, fun _ => trivial⟩⟩
    refine wp_mono (expandedField_safe hi hc (hb hgo.1.2)) ?_
    rintro ef s1 ⟨h1, h2, h3, h4⟩
    refine ⟨by omega, by omega, ?_⟩
    generalize hx : (decide (e.toks[s1.i]? = some tComma) || decide (e.toks[s1.i]? = some tCP)) = x
    have hx1 : s1.i + (s1.f && x).toNat ≤ e.toks.length ∧ bal e (s1.i + (s1.f && x).toNat) = 0 := by
      cases x
      · simp [h2, h4]
      · simp at hx
        rcases hx with hx | hx <;> have a := lt_of_some hx <;> have b := bal_succ hx <;> simp [br] at b <;>
          simp [h3] <;> omega
    exact expandedLoop_safe hc n _ _ _ (by simp; omega) hx1.1 (fun _ => hx1.2)

theorem parseMultiple_safe {s : St} (hi : s.i ≤ e.toks.length) (hc : ClosedTypes e) (hb : bal e s.i = 0) :
    wp parseMultiple e (fun _ s' => s'.i ≤ e.toks.length) s := by
  simp only [parseMultiple]
  wps
  refine ⟨hi, fun _ => trivial, fun h => ⟨by omega, fun t ht => ?_⟩⟩
  split
  · wps
    exact wp_mono (expandedField_safe hi hc hb) fun _ _ h => h.2.1
  · wps
    have := bal_succ ht
    simp [br] at this
    exact expandedLoop_safe hc _ _ _ _ (by simp) (by simp; omega) (fun _ => by simp only; omega)
  · trivial

theorem alterModel_safe {s : St} (hi : s.i ≤ e.toks.length) (hlen : s.i + 4 ≤ e.toks.length) (hc : ClosedTypes e)
    (hb : bal e s.i = 0) : wp alterModel e (fun _ s' => s'.i ≤ e.toks.length) s := by
  simp only [alterModel]
  wps
  refine ⟨hi, fun h => by omega, fun _ => ⟨by omega, hi, fun _ => trivial, fun hid => ?_⟩⟩
  refine wp_mono (entityRef_safe (by omega) (Or.inl (by omega))) ?_
  rintro m s1 ⟨h1, h2, h3, h4, h5⟩
  refine ⟨by omega, fun t ht => ?_⟩
  have hb1 := bal_succ ht
  split
  · simp [br] at hb1
    wps
    exact wp_mono (parseMultiple_safe (by simp; omega) hc (by simp only; omega)) fun _ _ h => h
  · wps
    exact wp_mono (alterRemove_safe (by simp; omega)) fun _ _ h => h
  · simp [br] at hb1
    wps
    exact wp_mono (parseMultiple_safe (by simp; omega) hc (by simp only; omega)) fun _ _ h => h
  · trivial

theorem checkIfExists_safe {s : St} (hi : s.i ≤ e.toks.length) :
    wp checkIfExists e (fun _ s' => s'.i < e.toks.length ∧ s'.f = s.f) s := by
  simp only [checkIfExists]
  wps
  refine ⟨hi, fun _ => trivial, fun h => ?_⟩
  simp only [decide_eq_true_eq] at h
  rw [wp_offR]
  refine ⟨by omega, fun a ha => ?_⟩
  rw [wp_offR]
  refine ⟨by omega, fun b hb => ?_⟩
  generalize hx : (a == kw .if && b == tExists) = x
  have hlen : s.i + x.toNat * 2 ≤ e.toks.length := by
    cases x
    · simpa using hi
    · simp at hx
      obtain ⟨rfl, rfl⟩ := hx
      by_cases hl : s.i + 2 ≤ e.toks.length
      · simpa using hl
      · rw [show min (e.toks.length - 1) (s.i + 0) = e.toks.length - 1 by omega] at ha
        rw [show min (e.toks.length - 1) (s.i + 1) = e.toks.length - 1 by omega, ha] at hb
        simp at hb
  refine ⟨hlen, fun _ => trivial, fun hne => ?_⟩
  simp only [decide_eq_true_eq] at hne
  exact ⟨by omega, rfl⟩

theorem allowNonEmpty_safe {s : St} (h0 : 0 < e.toks.length) (hi : s.i ≤ e.toks.length) :
    wp allowNonEmpty e (fun r s' => s' = s ∧ (r = true → s.i + 4 ≤ e.toks.length ∧ idAt e (s.i + 3) = true)) s := by
  simp only [allowNonEmpty, wp_bind]
  refine wp_offR_weak h0 fun a => wp_offR_weak h0 fun b => wp_offR_weak h0 fun c => ?_
  rw [wp_offR]
  refine ⟨h0, fun d hd => ?_⟩
  wps
  refine ⟨hi, trivial, fun h => ?_⟩
  simp only [Bool.and_eq_true, decide_eq_true_eq] at h
  rw [show min (e.toks.length - 1) (s.i + 3) = s.i + 3 by omega] at hd
  exact ⟨by omega, by simp [idAt, hd, h.1.2]⟩

theorem dropSpace_safe {s : St} (hi : s.i ≤ e.toks.length) :
    wp dropSpace e (fun _ s' => s'.i ≤ e.toks.length) s := by
  simp only [dropSpace]
  wps
  refine wp_mono (checkIfExists_safe hi) ?_
  rintro ie s1 ⟨h1, -⟩
  refine ⟨h1, fun t ht => ⟨fun hid => ⟨h1, fun t' ht' => ?_⟩, fun _ => ?_⟩⟩
  · obtain ⟨b, rfl⟩ := isId_iff.1 hid
    exact ⟨b, by simp_all, h1⟩
  · refine wp_mono (allowNonEmpty_safe (by omega) (by omega)) ?_
    rintro a s2 ⟨rfl, h2⟩
    refine ⟨fun ha => ⟨by have := h2 ha; omega, fun t ht => ?_⟩, fun _ => trivial⟩
    obtain ⟨h3, h4⟩ := h2 ha
    obtain ⟨b, hb⟩ := idAt_iff.1 h4
    exact ⟨b, by simp_all, h3⟩

theorem dropModel_safe {s : St} (hi : s.i ≤ e.toks.length) :
    wp dropModel e (fun _ s' => s'.i ≤ e.toks.length) s := by
  simp only [dropModel]
  wps
  refine wp_mono (checkIfExists_safe hi) ?_
  rintro ie s1 ⟨h1, -⟩
  refine ⟨h1, fun t ht => ⟨fun hid => ?_, fun _ => ?_⟩⟩
  · exact wp_mono (entityRef_safe (by omega) (Or.inl h1)) fun _ _ h => h.2.2.1
  · refine wp_mono (allowNonEmpty_safe (by omega) (by omega)) ?_
    rintro a s2 ⟨rfl, h2⟩
    refine ⟨fun ha => ?_, fun _ => trivial⟩
    obtain ⟨h3, h4⟩ := h2 ha
    exact wp_mono (entityRef_safe (by omega) (Or.inl (by simp; omega))) fun _ _ h => h.2.2.1

theorem useStmt_safe {s : St} (hi : s.i ≤ e.toks.length) : wp useStmt e (fun _ s' => s'.i ≤ e.toks.length) s := by
  simp only [useStmt]
  wps
  refine ⟨hi, fun _ => trivial, fun h => ?_⟩
  simp at h
  refine ⟨by omega, fun t ht => ?_⟩
  split
  · wps; omega
  · wps; omega
  · wps
    refine ⟨by omega, fun _ => trivial, fun h => ?_⟩
    simp only [decide_eq_true_eq] at h
    exact ⟨by omega, fun t _ => ⟨fun _ => by omega, fun _ => trivial⟩⟩
  · trivial

theorem inspectStmt_safe {s : St} (hi : s.i ≤ e.toks.length) :
    wp inspectStmt e (fun _ s' => s'.i ≤ e.toks.length) s := by
  simp only [inspectStmt]
  wps
  refine ⟨hi, fun _ => trivial, fun h => ?_⟩
  simp only [decide_eq_true_eq] at h
  refine ⟨by omega, fun t ht => ?_⟩
  split
  · wps
    refine ⟨by omega, fun _ => trivial, fun h => ?_⟩
    simp only [decide_eq_true_eq] at h
    refine ⟨by omega, fun t _ => ?_⟩
    split
    · wps; omega
    · trivial
  · wps
    refine wp_mono (entityRef_safe (by omega) ?_) fun _ _ h => h.2.2.1
    by_cases hl : s.i + 1 < e.toks.length
    · exact Or.inl hl
    · refine Or.inr ?_
      rw [show e.toks.length - 1 = s.i by omega]
      simp [idAt, ht, isId]
  · wps
    exact ⟨fun _ => by omega, fun _ => trivial⟩

theorem userMeta_safe {s : St} (hi : s.i ≤ e.toks.length) : wp userMeta e (fun _ s' => s'.i ≤ e.toks.length) s := by
  simp only [userMeta, parseDict]
  wps
  refine ⟨hi, fun _ => trivial, fun h => ⟨by omega, fun a ha => ⟨by omega, fun b hb => ⟨by omega, fun c hc => ?_⟩⟩⟩⟩
  refine wp_mono (rfoldDict_safe (by simp; omega) (Or.inl rfl)) ?_
  rintro d s1 hd
  split
  · trivial
  · wps
    rename_i hok
    have hf : s1.f = true := by
      by_cases h : s1.f = true
      · exact h
      · simp [h] at hok
    have := hd.flag hf
    simp at this
    obtain ⟨b, rfl⟩ := isId_iff.1 this.2.1.1
    exact ⟨b, rfl, hd.le, fun _ => trivial, fun _ => hd.le⟩

theorem userDel_safe {s : St} (h0 : 0 < e.toks.length) (hi : s.i ≤ e.toks.length) :
    wp userDel e (fun _ s' => s'.i ≤ e.toks.length) s := by
  simp only [userDel]
  wps
  refine ⟨h0, hi, hi, fun h => ?_, fun _ => trivial⟩
  simp at h
  obtain ⟨b, hb⟩ := idAt_iff.1 h.1
  exact ⟨by omega, fun t ht => ⟨b, by simp_all, by omega⟩⟩

theorem sysctl_safe {s : St} (hi : s.i ≤ e.toks.length) : wp sysctl e (fun _ s' => s'.i ≤ e.toks.length) s := by
  simp only [sysctl]
  wps
  refine ⟨hi, fun _ => trivial, fun h => ⟨by omega, fun a _ => ⟨by omega, fun b _ => ⟨fun _ => trivial, fun _ => ?_⟩⟩⟩⟩
  refine ⟨fun _ => ?_, fun _ => ⟨fun _ => ?_, fun _ => ⟨fun _ => ?_, fun _ => by omega⟩⟩⟩
  · exact wp_mono (userMeta_safe (by simp; omega)) fun _ _ h => h
  · exact wp_mono (userDel_safe (by omega) (by simp; omega)) fun _ _ h => h
  · exact wp_mono (userMeta_safe (by simp; omega)) fun _ _ h => h

end Verif.Ql
