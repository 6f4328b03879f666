import Verif.Ql.SoundDict
/-!
Statements on spaces, models and users that the parser accepts are in the grammar.
-/
namespace Verif.Ql
open Verif.Lex (Token Symbol Keyword KwStmt KwMisc Lit)
open Verif.Enc (DVal Dict)
open Gr

variable {e : Env} {α : Type}

/-- The tokens from the old cursor to the new one stand for `a`. -/
def Read (e : Env) (G : List Token → α → Prop) (s : St) (a : α) (s' : St) : Prop :=
  ∃ ts, At e s.i ts ∧ s'.i = s.i + ts.length ∧ G ts a

/-- The same, unless the flag has been lowered. -/
def Got (e : Env) (G : List Token → α → Prop) (s : St) (a : α) (s' : St) : Prop :=
  s'.f = true → s.f = true ∧ Read e G s a s'

/-! ### Signatures -/

/-- Are the given tokens at the cursor? -/
def ineAt (e : Env) (i : Nat) : Bool :=
  decide (e.toks[i]? = some (kw .if)) && decide (e.toks[i + 1]? = some (kw .not)) && decide (e.toks[i + 2]? = some tExists)

theorem ineAt_iff {i : Nat} : ineAt e i = true ↔ At e i ifNotExists := by
  simp [ineAt, At_cons, and_assoc]

theorem wp_sigIfNotExists {s : St} {Q : Bool → St → Prop} :
    wp sigIfNotExists e Q s = ((0 < e.toks.length ∧ s.i ≤ e.toks.length) ∧ Q (ineAt e s.i) s) := by
  simp only [sigIfNotExists, wp_bind]
  by_cases h0 : 0 < e.toks.length
  · by_cases h : s.i + 2 < e.toks.length
    · simp only [wp_offR, wp_remaining, wp_pure, Nat.add_zero]
      have m0 : min (e.toks.length - 1) s.i = s.i := by omega
      have m1 : min (e.toks.length - 1) (s.i + 1) = s.i + 1 := by omega
      have m2 : min (e.toks.length - 1) (s.i + 2) = s.i + 2 := by omega
      have h1 : s.i < e.toks.length := by omega
      have h2 : s.i + 1 < e.toks.length := by omega
      have h3 : s.i ≤ e.toks.length := by omega
      have h4 : 3 ≤ e.toks.length - s.i := by omega
      simp [List.getElem?_eq_getElem h, List.getElem?_eq_getElem h1, List.getElem?_eq_getElem h2, h0, h3, h4, m0, m1, m2, ineAt, BEq.beq]
    · have h1 : ineAt e s.i = false := by
        have : e.toks[s.i + 2]? = none := List.getElem?_eq_none (by omega)
        simp [ineAt, this]
      have h2 : ¬ 3 ≤ e.toks.length - s.i := by omega
      have a0 : min (e.toks.length - 1) s.i < e.toks.length := by omega
      have a1 : min (e.toks.length - 1) (s.i + 1) < e.toks.length := by omega
      have a2 : min (e.toks.length - 1) (s.i + 2) < e.toks.length := by omega
      simp [wp_offR, wp_remaining, h0, h1, h2, List.getElem?_eq_getElem a0, List.getElem?_eq_getElem a1,
        List.getElem?_eq_getElem a2]
  · simp [wp_offR, h0]

theorem lp_sigIfNotExists {s : St} {Q : Bool → St → Prop} :
    lp sigIfNotExists e Q s = (0 < e.toks.length ∧ s.i ≤ e.toks.length → Q (ineAt e s.i) s) :=
  lp_of_wp fun _ => wp_sigIfNotExists

theorem runs_sigIfNotExists {s : St} {Q : Bool → St → Prop} :
    runs sigIfNotExists e Q s = ((0 < e.toks.length ∧ s.i ≤ e.toks.length) ∧ Q (ineAt e s.i) s) :=
  runs_of_wp fun _ => wp_sigIfNotExists

/-- `if not exists` or nothing. -/
theorem opt_ine {i : Nat} : ∃ os, At e i os ∧ os.length = (ineAt e i).toNat * 3 ∧ Opt ifNotExists os (ineAt e i) := by
  cases h : ineAt e i
  · exact ⟨[], At_nil, rfl, .no⟩
  · exact ⟨ifNotExists, ineAt_iff.1 h, rfl, .yes⟩

/-- `if exists` at the cursor. -/
def ieAt (e : Env) (i : Nat) : Bool :=
  decide (e.toks[i]? = some (kw .if)) && decide (e.toks[i + 1]? = some tExists)

theorem ieAt_iff {i : Nat} : ieAt e i = true ↔ At e i ifExists := by
  simp [ieAt, At_cons]

theorem opt_ie {i : Nat} : ∃ os, At e i os ∧ os.length = (ieAt e i).toNat * 2 ∧ Opt ifExists os (ieAt e i) := by
  cases h : ieAt e i
  · exact ⟨[], At_nil, rfl, .no⟩
  · exact ⟨ifExists, ieAt_iff.1 h, rfl, .yes⟩

/-- What the two rounded reads of `sig_if_exists` compute. -/
theorem ie_rounded {i : Nat} {a b : Token} (hi : i < e.toks.length)
    (ha : e.toks[min (e.toks.length - 1) (i + 0)]? = some a) (hb : e.toks[min (e.toks.length - 1) (i + 1)]? = some b) :
    (a == kw .if && b == tExists) = ieAt e i := by
  have h0 : min (e.toks.length - 1) (i + 0) = i := by omega
  rw [h0] at ha
  by_cases h : i + 1 < e.toks.length
  · have h1 : min (e.toks.length - 1) (i + 1) = i + 1 := by omega
    rw [h1] at hb
    simp [ieAt, ha, hb, BEq.beq]
  · have h1 : min (e.toks.length - 1) (i + 1) = i := by omega
    rw [h1, ha] at hb
    cases hb
    have : e.toks[i + 1]? = none := List.getElem?_eq_none (by omega)
    simp only [ieAt, this, ha]
    by_cases h : a = kw .if
    · subst h; rfl
    · simp [h]

theorem checkIfExists_sound {s : St} :
    lp checkIfExists e (fun r s' => s'.f = s.f ∧ s'.i < e.toks.length ∧ Read e (Opt ifExists) s r s') s := by
  simp only [checkIfExists, lp_bind, lp_exhausted, lp_ite, lp_fail, lp_offR, lp_aheadBy, lp_pure]
  refine fun hi => ⟨fun _ => trivial, fun hx a ha b hb h2 => ⟨fun _ => trivial, fun hx' => ?_⟩⟩
  simp only [decide_eq_true_eq] at hx hx'
  rw [ie_rounded (by omega) ha hb] at h2 hx' ⊢
  obtain ⟨os, h3, h4, h5⟩ := opt_ie (e := e) (i := s.i)
  exact ⟨trivial, by show _ < _; omega, os, h3, by simp [h4], h5⟩

/-- `allow not empty x` at the cursor. -/
def allowAt (e : Env) (i : Nat) : Bool :=
  decide (e.toks[i]? = some (kw .allow)) && decide (e.toks[i + 1]? = some (kw .not)) &&
  (match e.toks[i + 2]? with | some t => identEq t "empty" | none => false) && idAt e (i + 3)

theorem wp_allowNonEmpty {s : St} {Q : Bool → St → Prop} :
    wp allowNonEmpty e Q s = ((0 < e.toks.length ∧ s.i ≤ e.toks.length) ∧ Q (allowAt e s.i) s) := by
  simp only [allowNonEmpty, wp_bind]
  by_cases h0 : 0 < e.toks.length
  · by_cases h : s.i + 3 < e.toks.length
    · simp only [wp_offR, wp_remaining, wp_pure, Nat.add_zero]
      have m0 : min (e.toks.length - 1) s.i = s.i := by omega
      have m1 : min (e.toks.length - 1) (s.i + 1) = s.i + 1 := by omega
      have m2 : min (e.toks.length - 1) (s.i + 2) = s.i + 2 := by omega
      have m3 : min (e.toks.length - 1) (s.i + 3) = s.i + 3 := by omega
      have h1 : s.i < e.toks.length := by omega
      have h2 : s.i + 1 < e.toks.length := by omega
      have h2' : s.i + 2 < e.toks.length := by omega
      have h3 : s.i ≤ e.toks.length := by omega
      have h4 : 4 ≤ e.toks.length - s.i := by omega
      simp [List.getElem?_eq_getElem h, List.getElem?_eq_getElem h1, List.getElem?_eq_getElem h2,
        List.getElem?_eq_getElem h2', h0, h3, h4, m0, m1, m2, m3, allowAt, idAt, BEq.beq]
    · have h1 : allowAt e s.i = false := by
        have : e.toks[s.i + 3]? = none := List.getElem?_eq_none (by omega)
        simp [allowAt, idAt, this]
      have h2 : ¬ 4 ≤ e.toks.length - s.i := by omega
      have a0 : min (e.toks.length - 1) s.i < e.toks.length := by omega
      have a1 : min (e.toks.length - 1) (s.i + 1) < e.toks.length := by omega
      have a2 : min (e.toks.length - 1) (s.i + 2) < e.toks.length := by omega
      have a3 : min (e.toks.length - 1) (s.i + 3) < e.toks.length := by omega
      simp [wp_offR, wp_remaining, h0, h1, h2, List.getElem?_eq_getElem a0, List.getElem?_eq_getElem a1,
        List.getElem?_eq_getElem a2, List.getElem?_eq_getElem a3]
  · simp [wp_offR, h0]

theorem lp_allowNonEmpty {s : St} {Q : Bool → St → Prop} :
    lp allowNonEmpty e Q s = (0 < e.toks.length ∧ s.i ≤ e.toks.length → Q (allowAt e s.i) s) :=
  lp_of_wp fun _ => wp_allowNonEmpty

theorem runs_allowNonEmpty {s : St} {Q : Bool → St → Prop} :
    runs allowNonEmpty e Q s = ((0 < e.toks.length ∧ s.i ≤ e.toks.length) ∧ Q (allowAt e s.i) s) :=
  runs_of_wp fun _ => wp_allowNonEmpty

theorem allowAt_iff {i : Nat} : allowAt e i = true ↔
    ∃ b x, Word "empty" b ∧ At e i [kw .allow, kw .not, .ident b, .ident x] := by
  simp only [allowAt, Bool.and_eq_true, decide_eq_true_eq, At_cons, idAt_iff, Word]
  constructor
  · rintro ⟨⟨⟨h1, h2⟩, h3⟩, x, h4⟩
    split at h3
    · rename_i t ht
      cases t with
      | ident b => exact ⟨b, x, h3, h1, h2, ht, h4, At_nil⟩
      | _ => simp [identEq] at h3
    · simp at h3
  · rintro ⟨b, x, h3, h1, h2, ht, h4, _⟩
    refine ⟨⟨⟨h1, h2⟩, ?_⟩, x, h4⟩
    rw [ht]
    exact h3

/-! ### Names -/

theorem entityFromTokens_lp {s : St} {Q : String × String → St → Prop}
    (h : ∀ a b, e.toks[s.i]? = some (.ident a) → e.toks[s.i + 2]? = some (.ident b) → Q (nm a, nm b) ⟨s.i + 3, s.f⟩) :
    lp entityFromTokens e Q s := by
  simp only [entityFromTokens]
  lps
  intro t ht a rfl t' ht' b rfl
  exact h a b ht ht'

theorem entityFromCs_lp {s : St} {Q : String × String → St → Prop}
    (h : ∀ b x, e.toks[s.i]? = some (.ident b) → e.cs = some x → Q (x, nm b) ⟨s.i + 1, s.f⟩) :
    lp entityFromCs e Q s := by
  simp only [entityFromCs]
  lps
  intro t ht a rfl x hx
  exact h a x ht hx

/-- A name as it is read. -/
def NameG (cs : Option String) (ts : List Token) (r : String × String) : Prop := Name cs ts r.1 r.2

theorem entityBuffered_sound {s : St} :
    lp entityBuffered e (fun r s' => s'.f = true → s.f = true ∧ ∃ x, r = some x ∧ Read e (NameG e.cs) s x s') s := by
  simp only [entityBuffered, lp_bind, lp_readAt, lp_hasCs, lp_ite, lp_pure, lp_poison, Nat.add_zero]
  intro a ha b hb c hc
  refine ⟨fun h => ?_, fun _ => ⟨fun h => ?_, fun _ h => by simp at h⟩⟩
  · simp only [Bool.and_eq_true, beq_iff_eq, isId_iff] at h
    obtain ⟨⟨⟨x, rfl⟩, rfl⟩, y, rfl⟩ := h
    refine entityFromTokens_lp fun x' y' hx hy => fun hf => ⟨hf, _, rfl, [.ident x, tDot, .ident y], ?_, rfl, ?_⟩
    · simp [At_cons, ha, hb, hc]
    · rw [ha] at hx; rw [hc] at hy; cases hx; cases hy
      exact .full (.mk x y)
  · simp only [Bool.and_eq_true, isId_iff] at h
    obtain ⟨⟨x, rfl⟩, h⟩ := h
    refine entityFromCs_lp fun x' sp hx hs => fun hf => ⟨hf, _, rfl, [.ident x], ?_, rfl, ?_⟩
    · simp [At_cons, ha]
    · rw [ha] at hx; cases hx
      exact .short x hs

/-- The rounded reads of three tokens find a full name exactly if it is there. -/
theorem name_rounded {i : Nat} {a b c : Token} (hi : i < e.toks.length)
    (ha : e.toks[min (e.toks.length - 1) (i + 0)]? = some a) (hb : e.toks[min (e.toks.length - 1) (i + 1)]? = some b)
    (hc : e.toks[min (e.toks.length - 1) (i + 2)]? = some c) :
    e.toks[i]? = some a ∧ ((isId a && b == tDot && isId c) = true →
      e.toks[i + 1]? = some tDot ∧ e.toks[i + 2]? = some c) := by
  have h0 : min (e.toks.length - 1) (i + 0) = i := by omega
  rw [h0] at ha
  refine ⟨ha, fun h => ?_⟩
  simp only [Bool.and_eq_true, beq_iff_eq, isId_iff] at h
  obtain ⟨⟨⟨x, rfl⟩, rfl⟩, y, rfl⟩ := h
  have h1 : i + 1 < e.toks.length := by
    by_cases h : i + 1 < e.toks.length
    · exact h
    · have h1 : min (e.toks.length - 1) (i + 1) = i := by omega
      rw [h1, ha] at hb
      simp at hb
  have h1' : min (e.toks.length - 1) (i + 1) = i + 1 := by omega
  rw [h1'] at hb
  have h2 : i + 2 < e.toks.length := by
    by_cases h : i + 2 < e.toks.length
    · exact h
    · have h2 : min (e.toks.length - 1) (i + 2) = i + 1 := by omega
      rw [h2, hb] at hc
      simp at hc
  have h2' : min (e.toks.length - 1) (i + 2) = i + 2 := by omega
  rw [h2'] at hc
  exact ⟨hb, hc⟩

theorem entityRef_sound {s : St} (hi : s.i < e.toks.length) :
    lp entityRef e (fun r s' => s'.f = s.f ∧ Read e (NameG e.cs) s r s') s := by
  simp only [entityRef, lp_bind, lp_offR, lp_hasCs, lp_ite, lp_fail]
  intro a ha b hb c hc
  obtain ⟨h1, h2⟩ := name_rounded hi ha hb hc
  refine ⟨fun h => ?_, fun _ => ⟨fun h => ?_, fun _ => trivial⟩⟩
  · obtain ⟨h3, h4⟩ := h2 h
    refine entityFromTokens_lp fun x y hx hy => ⟨rfl, [.ident x, tDot, .ident y], ?_, rfl, .full (.mk x y)⟩
    simp [At_cons, hx, h3, hy]
  · refine entityFromCs_lp fun x sp hx hs => ⟨rfl, [.ident x], ?_, rfl, .short x hs⟩
    simp [At_cons, hx]

theorem full_of_name {ts : List Token} {s m : String} (h : Name none ts s m) : Full ts s m := by
  cases h with
  | full h => exact h
  | short b h => cases h

/-! ### Statements -/

/-- The tokens `create space`, `create model`, ... -/
abbrev pre (k : KwStmt) (m : KwMisc) (ts : List Token) : List Token := .kw (.statement k) :: kw m :: ts

theorem createSpace_sound {s : St} :
    lp createSpace e (Read e (fun ts a => Ddl (pre .create .space ts) a) s) s := by
  simp only [createSpace, lp_sigIfNotExists, lp_bind, lp_remaining, lp_ite, lp_fail]
  refine fun _ => ⟨fun _ => trivial, fun _ _ => ?_⟩
  lps
  refine fun _ => ⟨fun _ => trivial, fun _ => ?_⟩
  intro t ht _ _
  obtain ⟨os, h1, h2, h3⟩ := opt_ine (e := e) (i := s.i)
  rw [← h2] at ht ⊢
  refine ⟨fun hw => ?_, fun hw => ⟨fun hok b hb => ?_, fun _ => trivial⟩⟩
  · simp only [Bool.and_eq_true, decide_eq_true_eq] at hw
    simp only [hw.1, decide_true, Bool.toNat_true]
    refine lp_mono rfoldDict_ob fun d s' h => ⟨fun hf' b hb => ?_, fun _ => trivial⟩
    obtain ⟨_, ts, h4, h5, h6⟩ := h hf'
    subst hb
    refine ⟨os ++ .ident b :: kw .with :: ts, At_append.2 ⟨h1, At_cons.2 ⟨ht, At_cons.2 ⟨hw.1, h4⟩⟩⟩, ?_, .createSpace h3 (.yes h6)⟩
    simp only [List.length_append, List.length_cons] at h5 ⊢
    omega
  · simp only [Bool.and_eq_true, Bool.or_eq_true, decide_eq_true_eq] at hw hok
    have hw' : ¬ e.toks[s.i + os.length + 1]? = some (kw .with) := fun h => hw ⟨h, hok⟩
    subst hb
    refine ⟨os ++ [.ident b], At_append.2 ⟨h1, At_cons.2 ⟨ht, At_nil⟩⟩, by simp [hw']; omega, .createSpace h3 .no⟩

theorem fieldSpec_sound {s : St} (hf : s.f = true) :
    lp fieldSpec e (fun a s' => s'.f = true ∧ Read e Gr.Field s a s') s := by
  simp only [fieldSpec]
  lps
  refine fun _ => ⟨fun _ => trivial, fun _ h0 h1 => ?_⟩
  intro a ha b hb
  split
  · rename_i x
    lps
    refine lp_mono rfoldLayers_sound fun ls s' h => ⟨fun hf' => ?_, fun _ => trivial⟩
    obtain ⟨h2, ts, h3, h4, h5⟩ := h hf'
    simp only [hf, Bool.true_and, Bool.not_eq_true', Bool.and_eq_false_iff, decide_eq_false_iff_not] at h2
    by_cases hp : e.toks[s.i]? = some (kw .primary)
    · have hn : ¬ e.toks[s.i + 1]? = some (kw .null) := by simpa [hp] using h2
      simp only [hp, decide_true, Bool.toNat_true, hn, decide_false, Bool.toNat_false, Nat.add_zero] at ha hb h3 h4 ⊢
      exact ⟨hf', _, At_cons.2 ⟨hp, At_cons.2 ⟨ha, At_cons.2 ⟨hb, h3⟩⟩⟩, by simp at h4 ⊢; omega, .primary h5⟩
    · simp only [hp, decide_false, Bool.toNat_false, Nat.add_zero] at ha hb h3 h4 ⊢
      by_cases hn : e.toks[s.i]? = some (kw .null)
      · simp only [hn, decide_true, Bool.toNat_true] at ha hb h3 h4 ⊢
        exact ⟨hf', _, At_cons.2 ⟨hn, At_cons.2 ⟨ha, At_cons.2 ⟨hb, h3⟩⟩⟩, by simp at h4 ⊢; omega, .null h5⟩
      · simp only [hn, decide_false, Bool.toNat_false, Nat.add_zero] at ha hb h3 h4 ⊢
        exact ⟨hf', _, At_cons.2 ⟨ha, At_cons.2 ⟨hb, h3⟩⟩, by simp at h4 ⊢; omega, .plain h5⟩
  · trivial

/-- The columns that are still to be read. -/
def FieldsTail (stop : Bool) (ts : List Token) (fs : List Gns.FieldSpec) : Prop :=
  if stop then ts = [] ∧ fs = [] else Fields ts fs

theorem fieldLoop_sound : ∀ (n : Nat) (stop : Bool) (fs : List Gns.FieldSpec) (s : St),
    lp (fieldLoop n stop fs) e (fun r s' => s'.f = true → s.f = true ∧ ∃ fs', r = fs ++ fs' ∧ Read e (FieldsTail stop) s fs' s') s
  | 0, _, _, _ => trivial
  | n + 1, stop, fs, s => by
    simp only [fieldLoop]
    lps
    intro hi
    refine ⟨fun hgo => ?_, fun hgo hf => ?_⟩
    · simp only [Bool.and_eq_true, decide_eq_true_eq, Bool.not_eq_true'] at hgo
      obtain ⟨⟨hlt, hf⟩, rfl⟩ := hgo
      refine lp_mono (fieldSpec_sound hf) ?_
      rintro f s1 ⟨hf1, ts, h1, h2, h3⟩ _ _
      refine lp_mono (fieldLoop_sound n _ _ _) ?_
      intro r s' h hf'
      obtain ⟨h4, fs', h5, us, h6, h7, h8⟩ := h hf'
      simp only [hf1, Bool.true_and, Bool.or_eq_true, decide_eq_true_eq] at h4
      refine ⟨hf, f :: fs', by rw [h5]; simp, ?_⟩
      by_cases hc : e.toks[s1.i]? = some tCP
      · simp only [FieldsTail, hc, decide_true, if_true] at h8
        obtain ⟨rfl, rfl⟩ := h8
        simp only [hc, decide_true, Bool.true_or, Bool.toNat_true] at h7
        rw [h2] at hc
        refine ⟨ts ++ [tCP], At_append.2 ⟨h1, At_cons.2 ⟨hc, At_nil⟩⟩, by simp at h7 ⊢; omega, ?_⟩
        exact .last h3
      · have hc' := h4.resolve_left hc
        simp only [FieldsTail, hc, decide_false] at h8
        simp only [hc', decide_true, Bool.or_true, Bool.toNat_true] at h6 h7
        rw [h2] at hc' h6
        refine ⟨ts ++ tComma :: us, At_append.2 ⟨h1, At_cons.2 ⟨hc', h6⟩⟩, by simp at h7 ⊢; omega, ?_⟩
        exact .more h3 h8
    · simp only [Bool.and_eq_true] at hf
      obtain ⟨hf, rfl⟩ := hf
      exact ⟨hf, [], by simp, [], At_nil, rfl, by simp [FieldsTail]⟩

theorem createModel_sound {s : St} (hcs : e.cs = none) :
    lp createModel e (Read e (fun ts a => Ddl (pre .create .model ts) a) s) s := by
  simp only [createModel, lp_sigIfNotExists, lp_bind, lp_remaining, lp_ite, lp_fail]
  refine fun _ => ⟨fun _ => trivial, fun _ _ => ?_⟩
  simp only [lp_aheadBy]
  obtain ⟨os, h1, h2, h3⟩ := opt_ine (e := e) (i := s.i)
  rw [← h2]
  refine lp_mono entityBuffered_sound fun m s1 hm => ?_
  lps
  intro _
  refine lp_mono (fieldLoop_sound _ _ _ _) fun fs s2 hfs => ?_
  simp only [List.nil_append] at hfs
  intro _
  -- what has been read up to the closing parenthesis
  have key : s2.f = true → ∃ x, m = some x ∧ ∃ ns us, Full ns x.1 x.2 ∧ Fields us fs ∧
      At e s.i (os ++ ns ++ tOP :: us) ∧ s2.i = s.i + (os ++ ns ++ tOP :: us).length := by
    intro hf2
    obtain ⟨a1, fs', rfl, us, a2, a3, a4⟩ := hfs hf2
    simp only [Bool.and_eq_true, decide_eq_true_eq] at a1
    obtain ⟨_, x, b1, ns, b2, b3, b4⟩ := hm a1.1
    simp only [NameG, hcs] at b4
    simp only at b2 b3 a2 a3
    refine ⟨x, b1, ns, us, full_of_name b4, a4, ?_, ?_⟩
    · rw [At_append, At_append, At_cons]
      refine ⟨⟨h1, b2⟩, ?_, ?_⟩
      · rw [List.length_append, ← Nat.add_assoc, ← b3]; exact a1.2
      · rw [List.length_append, ← Nat.add_assoc, ← b3]; exact a2
    · simp only [List.length_append, List.length_cons]; omega
  refine ⟨fun hw => ?_, fun hw => ⟨fun hf2 x hx => ?_, fun _ => trivial⟩⟩
  · simp only [decide_eq_true_eq] at hw
    refine lp_mono rfoldDict_ob fun d s3 h => ⟨fun hf3 x hx => ?_, fun _ => trivial⟩
    obtain ⟨hf2, ts, a1, a2, a3⟩ := h hf3
    obtain ⟨y, hy, ns, us, b1, b2, b3, b4⟩ := key hf2
    rw [hy] at hx
    cases hx
    refine ⟨os ++ ns ++ tOP :: us ++ kw .with :: ts, At_append.2 ⟨b3, At_cons.2 ⟨?_, ?_⟩⟩, ?_, .createModel h3 b1 b2 (.yes a3)⟩
    · rw [← b4]; exact hw
    · rw [← b4]; exact a1
    · rw [List.length_append, ← Nat.add_assoc, ← b4, List.length_cons]; simp at a2; omega
  · obtain ⟨y, hy, ns, us, b1, b2, b3, b4⟩ := key hf2
    rw [hy] at hx
    cases hx
    exact ⟨os ++ ns ++ tOP :: us ++ [], by simpa using b3, by simpa using b4, .createModel h3 b1 b2 .no⟩

theorem alterSpace_sound {s : St} :
    lp alterSpace e (Read e (fun ts a => Ddl (pre .alter .space ts) a) s) s := by
  simp only [alterSpace]
  lps
  refine fun _ => ⟨fun _ => trivial, fun _ t ht _ _ => ⟨fun _ => trivial, fun hok b hb => ?_⟩⟩
  refine lp_mono (rfoldDict_sound (by simp)) fun d s' h => ⟨fun hf' => ?_, fun _ => trivial⟩
  obtain ⟨_, ts, es, a1, a2, a3, a4, a5⟩ := h hf'
  simp only [List.nil_append] at a3 a4
  subst a3 hb
  simp only [Bool.not_eq_true', Bool.not_eq_false, Bool.and_eq_true, decide_eq_true_eq] at hok
  rcases a5 with ⟨_, a5⟩ | ⟨a5, _⟩
  · exact ⟨.ident b :: kw .with :: tOB :: ts, At_cons.2 ⟨ht, At_cons.2 ⟨hok.1.2, At_cons.2 ⟨hok.2, a1⟩⟩⟩,
      by simp at a2 ⊢; omega, .alterSpace (.mk a5 a4)⟩
  · simp at a5

/-- The names that are still to be read. -/
def NamesTail (stop : Bool) (ts : List Token) (ns : List String) : Prop :=
  if stop then ts = [] ∧ ns = [] else NameList ts ns

theorem removeLoop_sound : ∀ (n : Nat) (stop : Bool) (cols : List String) (s : St),
    lp (removeLoop n stop cols) e (fun r s' => s.f = true ∧ ∃ ns, r = cols ++ ns ∧ Read e (NamesTail stop) s ns s') s
  | 0, _, _, _ => trivial
  | n + 1, stop, cols, s => by
    simp only [removeLoop, lp_bind, lp_loopTt, lp_ite, lp_poisonIfNot, lp_okay, lp_pure, lp_fail, lp_fwRead]
    intro hi
    refine ⟨fun hgo t ht => ?_, fun hgo => ⟨fun hok => ?_, fun _ => trivial⟩⟩
    · simp only [Bool.and_eq_true, decide_eq_true_eq, Bool.not_eq_true'] at hgo
      obtain ⟨⟨hlt, hf⟩, rfl⟩ := hgo
      split
      · rename_i b
        lps
        intro _ _
        simp only [hf, Bool.true_and]
        refine lp_mono (removeLoop_sound n _ _ _) ?_
        rintro r s' ⟨h4, ns, h5, us, h6, h7, h8⟩
        refine ⟨trivial, nm b :: ns, by rw [h5]; simp, ?_⟩
        simp only [Bool.or_eq_true, decide_eq_true_eq] at h4
        by_cases hc : e.toks[s.i + 1]? = some tCP
        · simp only [NamesTail, hc, decide_true, if_true] at h8
          obtain ⟨rfl, rfl⟩ := h8
          simp only [hc, decide_true, Bool.or_true, Bool.toNat_true] at h7
          refine ⟨[.ident b, tCP], At_cons.2 ⟨ht, At_cons.2 ⟨hc, At_nil⟩⟩, by simp at h7 ⊢; omega, ?_⟩
          exact .last b
        · simp only [NamesTail, hc, decide_false] at h8
          have hc' := h4.resolve_right hc
          simp only [hc', decide_true, Bool.true_or, Bool.toNat_true] at h6 h7
          refine ⟨.ident b :: tComma :: us, At_cons.2 ⟨ht, At_cons.2 ⟨hc', h6⟩⟩, by simp at h7 ⊢; omega, ?_⟩
          exact .more h8
      · lps
        intro _
        trivial
    · simp only [Bool.and_eq_true] at hok
      obtain ⟨hf, rfl⟩ := hok
      exact ⟨hf, [], by simp, [], At_nil, rfl, by simp [NamesTail]⟩

theorem alterRemove_sound {s : St} :
    lp alterRemove e (Read e (fun ts a => ∃ ns, a = .remove ns ∧ Names ts ns) s) s := by
  simp only [alterRemove, lp_bind, lp_exhausted, lp_ite, lp_fail, lp_fwRead]
  refine fun _ => ⟨fun _ => trivial, fun _ t ht => ?_⟩
  split
  · rename_i b
    exact ⟨[.ident b], At_cons.2 ⟨ht, At_nil⟩, rfl, _, rfl, .one b⟩
  · lps
    refine lp_mono (removeLoop_sound _ _ _ _) ?_
    rintro r s' ⟨_, ns, h1, us, h2, h3, h4⟩
    simp only [NamesTail, Bool.false_eq_true, if_false, List.nil_append] at h1 h4
    subst h1
    exact ⟨tOP :: us, At_cons.2 ⟨ht, h2⟩, by simp at h3 ⊢; omega, _, rfl, .list h4⟩
  · trivial

theorem expandedField_sound {s : St} :
    lp expandedField e (fun a s' => s.f = true ∧ s'.f = true ∧ Read e Column s a s') s := by
  simp only [expandedField]
  lps
  refine fun _ => ⟨fun _ => trivial, fun _ t ht hlt => ?_⟩
  refine lp_mono (rfold_sound _ _ _ _ _ _ (by simp [Distinct]) (by simp)) ?_
  rintro ⟨more, props⟩ s1 h1
  -- the name, the brace and the first properties
  have key : s1.f = true → s.f = true ∧ ∃ b, t = .ident b ∧ ∃ ts, Distinct props ∧ TB true more ts props ∧
      At e s.i (.ident b :: tOB :: ts) ∧ s1.i = s.i + ts.length + 2 := by
    intro hf1
    obtain ⟨a1, ts, es, a2, a3, a4, a5, a6⟩ := h1 hf1
    simp only [List.nil_append] at a4 a5
    subst a4
    simp only [Bool.and_eq_true, decide_eq_true_eq, isId_iff] at a1
    obtain ⟨⟨b0, b, rfl⟩, b2⟩ := a1
    exact ⟨b0, b, rfl, ts, a5, a6, At_cons.2 ⟨ht, At_cons.2 ⟨b2, a2⟩⟩, by simp at a3; omega⟩
  lps
  refine ⟨fun hmore _ => ⟨fun _ => trivial, fun hx hlt1 => ?_⟩, fun hmore => ⟨fun hf1 b hb => ?_, fun _ => trivial⟩⟩
  · have hmore : more = true := hmore
    subst hmore
    refine lp_mono rfoldLayers_sound fun ls s2 h2 => ?_
    intro t2 ht2
    -- and the type
    have key2 : s2.f = true → s.f = true ∧ ∃ b, t = .ident b ∧ ∃ us ts, Distinct props ∧ Items us props ∧ Ty ts ls ∧
        At e s.i (.ident b :: tOB :: (us ++ kw .type :: tColon :: ts)) ∧
        s2.i = s.i + (.ident b :: tOB :: (us ++ kw .type :: tColon :: ts) : List Token).length := by
      intro hf2
      obtain ⟨a1, ts, a2, a3, a4⟩ := h2 hf2
      simp only [Bool.and_eq_true, decide_eq_true_eq] at a1
      obtain ⟨b0, b, b1, vs, b2, b3, b4, b5⟩ := key a1.1
      rcases b3 with ⟨b3, _⟩ | ⟨_, _, us, rfl, b3⟩
      · simp at b3
      simp only [List.length_append, List.length_cons, List.length_nil] at b5
      refine ⟨b0, b, b1, us, ts, b2, b3, a4, ?_, by simp at a3 ⊢; omega⟩
      rw [At_cons, At_cons, At_append, At_cons] at b4
      obtain ⟨c1, c2, c3, c4, _⟩ := b4
      refine At_cons.2 ⟨c1, At_cons.2 ⟨c2, At_append.2 ⟨c3, At_cons.2 ⟨c4, At_cons.2 ⟨?_, ?_⟩⟩⟩⟩⟩
      · rw [show s.i + 1 + 1 + us.length + 1 = s1.i by omega]; exact a1.2
      · rw [show s.i + 1 + 1 + us.length + 1 + 1 = s1.i + 1 by omega]; exact a2
    split
    · lps
      by_cases hf2 : s2.f = true
      · obtain ⟨b0, b, rfl, us, ts, b2, b3, b4, b5, b6⟩ := key2 hf2
        refine lp_mono (rfold_sound _ _ _ _ _ _ b2 (by simp)) ?_
        rintro ⟨more, props'⟩ s3 h3
        refine ⟨fun hf3 b' hb' => ?_, fun _ => trivial⟩
        obtain rfl : b = b' := by cases hb'; rfl
        obtain ⟨_, vs, es, c1, c2, c3, c4, c5⟩ := h3 hf3
        simp only at c3
        subst c3
        rcases c5 with ⟨_, c5⟩ | ⟨_, c5, _⟩
        · refine ⟨b0, hf3, .ident b :: tOB :: (us ++ kw .type :: tColon :: (ts ++ tComma :: vs)), ?_, ?_,
            .typedMore b3 b4 c5 c4⟩
          · have : (.ident b :: tOB :: (us ++ kw .type :: tColon :: (ts ++ tComma :: vs)) : List Token) =
              .ident b :: tOB :: (us ++ kw .type :: tColon :: ts) ++ tComma :: vs := by simp
            rw [this, At_append]
            exact ⟨b5, At_cons.2 ⟨by rw [← b6]; exact ht2, by rw [← b6]; exact c1⟩⟩
          · simp at c2 b6 ⊢; omega
        · simp at c5
      · refine lp_mono (rfold_off (by simpa using hf2)) ?_
        rintro ⟨more, props'⟩ s3 h3
        exact ⟨fun h => by simp [h3] at h, fun _ => trivial⟩
    · lps
      refine ⟨fun hf2 b' hb' => ?_, fun _ => trivial⟩
      obtain ⟨b0, b, rfl, us, ts, b2, b3, b4, b5, b6⟩ := key2 hf2
      obtain rfl : b = b' := by cases hb'; rfl
      refine ⟨b0, hf2, .ident b :: tOB :: (us ++ kw .type :: tColon :: (ts ++ [tCB])), ?_, ?_, .typed b3 b2 b4⟩
      · have : (.ident b :: tOB :: (us ++ kw .type :: tColon :: (ts ++ [tCB])) : List Token) =
          .ident b :: tOB :: (us ++ kw .type :: tColon :: ts) ++ [tCB] := by simp
        rw [this, At_append]
        exact ⟨b5, At_cons.2 ⟨by rw [← b6]; exact ht2, At_nil⟩⟩
      · simp at b6 ⊢; omega
    · lps
  · have hmore : more = false := by simpa using hmore
    subst hmore
    obtain ⟨b0, b', rfl, ts, b2, b3, b4, b5⟩ := key hf1
    cases hb
    rcases b3 with ⟨_, b3⟩ | ⟨b3, _⟩
    · exact ⟨b0, hf1, _, b4, by simp; omega, .props b3 b2⟩
    · simp at b3

/-- The columns that are still to be read. -/
def ColumnsTail (stop : Bool) (ts : List Token) (cs : List Gns.Expanded) : Prop :=
  if stop then ts = [] ∧ cs = [] else ColumnList ts cs

theorem expandedLoop_sound : ∀ (n : Nat) (stop : Bool) (cols : List Gns.Expanded) (s : St),
    lp (expandedLoop n stop cols) e (fun r s' => s.f = true ∧ ∃ cs, r = cols ++ cs ∧ Read e (ColumnsTail stop) s cs s') s
  | 0, _, _, _ => trivial
  | n + 1, stop, cols, s => by
    simp only [expandedLoop]
    lps
    intro hi
    refine ⟨fun hgo t ht => ⟨fun _ => ?_, fun _ => trivial⟩, fun hgo => ⟨fun hok => ?_, fun _ => trivial⟩⟩
    · simp only [Bool.and_eq_true, decide_eq_true_eq, Bool.not_eq_true'] at hgo
      obtain ⟨⟨hlt, hf⟩, rfl⟩ := hgo
      refine lp_mono expandedField_sound ?_
      rintro c s1 ⟨_, hf1, ts, h1, h2, h3⟩ _ _
      refine lp_mono (expandedLoop_sound n _ _ _) ?_
      rintro r s' ⟨h4, cs, h5, us, h6, h7, h8⟩
      refine ⟨hf, c :: cs, by rw [h5]; simp, ?_⟩
      simp only [hf1, Bool.true_and, Bool.or_eq_true, decide_eq_true_eq] at h4
      by_cases hc : e.toks[s1.i]? = some tCP
      · simp only [ColumnsTail, hc, decide_true, if_true] at h8
        obtain ⟨rfl, rfl⟩ := h8
        simp only [hc, hf1, decide_true, Bool.or_true, Bool.toNat_true, Bool.and_self] at h7
        rw [h2] at hc
        refine ⟨ts ++ [tCP], At_append.2 ⟨h1, At_cons.2 ⟨hc, At_nil⟩⟩, by simp at h7 ⊢; omega, ?_⟩
        exact .last h3
      · simp only [ColumnsTail, hc, decide_false] at h8
        have hc' := h4.resolve_right hc
        simp only [hc', hf1, decide_true, Bool.true_or, Bool.toNat_true, Bool.and_self] at h6 h7
        rw [h2] at hc' h6
        refine ⟨ts ++ tComma :: us, At_append.2 ⟨h1, At_cons.2 ⟨hc', h6⟩⟩, by simp at h7 ⊢; omega, ?_⟩
        exact .more h3 h8
    · simp only [Bool.and_eq_true] at hok
      obtain ⟨hf, rfl⟩ := hok
      exact ⟨hf, [], by simp, [], At_nil, rfl, by simp [ColumnsTail]⟩

theorem parseMultiple_sound {s : St} : lp parseMultiple e (Read e Columns s) s := by
  simp only [parseMultiple, lp_bind, lp_remaining, lp_ite, lp_fail, lp_read]
  refine fun _ => ⟨fun _ => trivial, fun _ t ht => ?_⟩
  split
  · lps
    refine lp_mono expandedField_sound ?_
    rintro c s1 ⟨_, _, ts, h1, h2, h3⟩
    exact ⟨ts, h1, h2, .one h3⟩
  · lps
    refine lp_mono (expandedLoop_sound _ _ _ _) ?_
    rintro r s' ⟨_, cs, h1, us, h2, h3, h4⟩
    simp only [ColumnsTail, Bool.false_eq_true, if_false, List.nil_append] at h1 h4
    subst h1
    exact ⟨tOP :: us, At_cons.2 ⟨ht, h2⟩, by simp at h3 ⊢; omega, .list h4⟩
  · trivial

theorem alterModel_sound {s : St} (hcs : e.cs = none) :
    lp alterModel e (Read e (fun ts a => Ddl (pre .alter .model ts) a) s) s := by
  simp only [alterModel, lp_bind, lp_remaining, lp_ite, lp_fail, lp_pure, lp_hasIdentRounded, lp_fwRead]
  refine fun hi => ⟨fun _ => ⟨fun _ => trivial, fun h => absurd rfl h⟩, fun h2 _ => ⟨fun _ => trivial, fun _ => ?_⟩⟩
  refine lp_mono (entityRef_sound (by omega)) ?_
  rintro m s1 ⟨_, ns, h1, h3, h4⟩ t ht
  simp only [NameG, hcs] at h4
  have h4 := full_of_name h4
  have fin : ∀ (us : List Token) (k : Gns.AlterKind) (j : Nat) (f : Bool), At e (s1.i + 1) us →
      j = s1.i + 1 + us.length → Alter (t :: us) k →
      Read e (fun ts a => Ddl (pre .alter .model ts) a) s (.alterModel m.1 m.2 k) ⟨j, f⟩ := by
    intro us k j f a1 a2 a3
    rw [h3] at ht a1
    exact ⟨ns ++ t :: us, At_append.2 ⟨h1, At_cons.2 ⟨ht, a1⟩⟩, by simp; omega, .alterModel h4 a3⟩
  split
  · lps
    refine lp_mono parseMultiple_sound ?_
    rintro cs s2 ⟨us, a1, a2, a3⟩
    exact fin us _ s2.i s2.f a1 a2 (.add a3)
  · lps
    refine lp_mono alterRemove_sound ?_
    rintro k s2 ⟨us, a1, a2, ns, rfl, a3⟩
    exact fin us _ s2.i s2.f a1 a2 (.remove a3)
  · lps
    refine lp_mono parseMultiple_sound ?_
    rintro cs s2 ⟨us, a1, a2, a3⟩
    exact fin us _ s2.i s2.f a1 a2 (.update a3)
  · trivial

theorem dropSpace_sound {s : St} :
    lp dropSpace e (Read e (fun ts a => Ddl (pre .drop .space ts) a) s) s := by
  simp only [dropSpace, lp_bind]
  refine lp_mono checkIfExists_sound ?_
  rintro ie s1 ⟨_, h0, os, h1, h2, h3⟩
  lps
  simp only [lp_allowNonEmpty]
  refine fun t ht => ⟨fun hid t' ht' b hb => ?_, fun _ _ => ⟨fun ha t' ht' b hb => ?_, fun _ => trivial⟩⟩
  · subst hb
    rw [h2] at ht'
    exact ⟨os ++ [] ++ [.ident b], by simpa [At_append, At_cons] using ⟨h1, ht'⟩, by simp; omega, .dropSpace h3 .no⟩
  · subst hb
    obtain ⟨w, x, hw, hat⟩ := allowAt_iff.1 ha
    have hx : x = b := by
      simp only [At_cons] at hat
      have := hat.2.2.2.1
      rw [ht'] at this
      cases this; rfl
    subst hx
    rw [h2] at hat
    refine ⟨os ++ [kw .allow, kw .not, .ident w] ++ [.ident x], ?_, by simp; omega, .dropSpace h3 (.yes hw)⟩
    rw [List.append_assoc, At_append]
    exact ⟨h1, by simpa using hat⟩

theorem dropModel_sound {s : St} (hcs : e.cs = none) :
    lp dropModel e (Read e (fun ts a => Ddl (pre .drop .model ts) a) s) s := by
  simp only [dropModel, lp_bind]
  refine lp_mono checkIfExists_sound ?_
  rintro ie s1 ⟨_, h0, os, h1, h2, h3⟩
  lps
  simp only [lp_allowNonEmpty]
  refine fun t ht => ⟨fun hid => ?_, fun _ _ => ⟨fun ha => ?_, fun _ => trivial⟩⟩
  · refine lp_mono (entityRef_sound h0) ?_
    rintro m s2 ⟨_, ns, a1, a2, a3⟩
    simp only [NameG, hcs] at a3
    rw [h2] at a1
    exact ⟨os ++ [] ++ ns, by simpa [At_append] using ⟨h1, a1⟩, by simp; omega, .dropModel h3 .no (full_of_name a3)⟩
  · obtain ⟨w, x, hw, hat⟩ := allowAt_iff.1 ha
    simp only [At_cons] at hat
    obtain ⟨c1, c2, c3, c4, _⟩ := hat
    refine lp_mono (entityRef_sound (by simpa using lt_of_some c4)) ?_
    rintro m s2 ⟨_, ns, a1, a2, a3⟩
    simp only [NameG, hcs] at a3
    rw [h2] at c1 c2 c3 a1
    refine ⟨os ++ [kw .allow, kw .not, .ident w] ++ ns, ?_, by simp at a2 ⊢; omega, .dropModel h3 (.yes hw) (full_of_name a3)⟩
    rw [List.append_assoc, At_append]
    exact ⟨h1, At_cons.2 ⟨c1, At_cons.2 ⟨c2, At_cons.2 ⟨c3, a1⟩⟩⟩⟩

/-! ### Users -/

theorem userMeta_sound {s : St} :
    lp userMeta e (Read e (fun ts a => ∃ b us, a.1 = nm b ∧ Map us a.2 ∧ ts = .ident b :: kw .with :: us) s) s := by
  simp only [userMeta, parseDict, lp_bind, lp_remaining, lp_ite, lp_fail, lp_readAt, lp_poisonIfNot, lp_aheadBy]
  refine fun _ => ⟨fun _ => trivial, fun _ a ha b hb c hc => ?_⟩
  refine lp_mono rfoldDict_ob fun d s1 h => ?_
  lps
  by_cases hf1 : s1.f = true
  · obtain ⟨h1, ts, h2, h3, h4⟩ := h hf1
    rw [hf1]
    simp only [if_true]
    lps
    intro x hx _
    refine ⟨fun _ => trivial, fun _ => ?_⟩
    subst hx
    simp only [Bool.and_eq_true, beq_iff_eq] at h1
    obtain ⟨_, ⟨_, rfl⟩, rfl⟩ := h1
    exact ⟨_, At_cons.2 ⟨ha, At_cons.2 ⟨hb, h2⟩⟩, by simp at h3 ⊢; omega, x, ts, rfl, h4, rfl⟩
  · simp only [hf1]
    trivial

theorem userDel_sound {s : St} :
    lp userDel e (Read e (fun ts a => ∃ b, a = nm b ∧ ts = [.ident b]) s) s := by
  simp only [userDel]
  lps
  refine fun _ _ => ⟨fun _ t ht b hb => ?_, fun _ => trivial⟩
  subst hb
  exact ⟨_, At_cons.2 ⟨ht, At_nil⟩, rfl, b, rfl, rfl⟩

theorem identEq_iff {t : Token} {w : String} : identEq t w = true ↔ ∃ b, t = .ident b ∧ Word w b := by
  cases t <;> simp [identEq, Word]

theorem sysctl_sound {s : St} : lp sysctl e (Read e Sys s) s := by
  simp only [sysctl]
  lps
  refine fun _ => ⟨fun _ => trivial, fun _ a ha b hb => ⟨fun _ => trivial, fun hc => ⟨fun h => ?_, fun h1 => ⟨fun h => ?_,
    fun h2 => ⟨fun h => ?_, fun h3 => ?_⟩⟩⟩⟩⟩
  · simp only [Bool.and_eq_true, beq_iff_eq, identEq_iff] at h
    obtain ⟨rfl, u, rfl, hu⟩ := h
    refine lp_mono userMeta_sound ?_
    rintro ⟨n, d⟩ s1 ⟨ts, a1, a2, x, us, a3, a4, rfl⟩
    simp only at a3 a4
    subst a3
    exact ⟨_, At_cons.2 ⟨ha, At_cons.2 ⟨hb, a1⟩⟩, by simp at a2 ⊢; omega, .createUser hu a4⟩
  · simp only [Bool.and_eq_true, beq_iff_eq, identEq_iff] at h
    obtain ⟨rfl, u, rfl, hu⟩ := h
    refine lp_mono userDel_sound ?_
    rintro n s1 ⟨ts, a1, a2, x, rfl, rfl⟩
    exact ⟨_, At_cons.2 ⟨ha, At_cons.2 ⟨hb, a1⟩⟩, by simp at a2 ⊢; omega, .dropUser hu⟩
  · simp only [Bool.and_eq_true, beq_iff_eq, identEq_iff] at h
    obtain ⟨rfl, u, rfl, hu⟩ := h
    refine lp_mono userMeta_sound ?_
    rintro ⟨n, d⟩ s1 ⟨ts, a1, a2, x, us, a3, a4, rfl⟩
    simp only at a3 a4
    subst a3
    exact ⟨_, At_cons.2 ⟨ha, At_cons.2 ⟨hb, a1⟩⟩, by simp at a2 ⊢; omega, .alterUser hu a4⟩
  · simp only [Bool.not_eq_true] at h1 h2 h3
    rw [h1, h2, h3] at hc
    simp only [Bool.false_or, Bool.or_false, Bool.not_eq_true', Bool.not_eq_false, Bool.and_eq_true, identEq_iff] at hc
    obtain ⟨⟨x, rfl, hx⟩, y, rfl, hy⟩ := hc
    exact ⟨_, At_cons.2 ⟨ha, At_cons.2 ⟨hb, At_nil⟩⟩, rfl, .report hx hy⟩

/-! ### `USE` and `INSPECT` -/

theorem useStmt_sound {s : St} : lp useStmt e (Read e Uses s) s := by
  simp only [useStmt, lp_bind, lp_remaining, lp_ite, lp_fail, lp_fwRead]
  refine fun _ => ⟨fun _ => trivial, fun _ t ht => ?_⟩
  split
  · rename_i b
    exact ⟨_, At_cons.2 ⟨ht, At_nil⟩, rfl, .space b⟩
  · exact ⟨_, At_cons.2 ⟨ht, At_nil⟩, rfl, .null⟩
  · lps
    refine fun _ => ⟨fun _ => trivial, fun _ t' ht' => ⟨fun h => ?_, fun _ => trivial⟩⟩
    obtain ⟨b, rfl, hb⟩ := identEq_iff.1 h
    exact ⟨_, At_cons.2 ⟨ht, At_cons.2 ⟨ht', At_nil⟩⟩, rfl, .current hb⟩
  · trivial

theorem inspectStmt_sound {s : St} : lp inspectStmt e (Read e (Inspects e.cs) s) s := by
  simp only [inspectStmt, lp_bind, lp_exhausted, lp_ite, lp_fail, lp_fwRead]
  refine fun _ => ⟨fun _ => trivial, fun _ t ht => ?_⟩
  split
  · simp only [lp_bind, lp_exhausted, lp_ite, lp_fail, lp_fwRead]
    refine fun _ => ⟨fun _ => trivial, fun _ t' ht' => ?_⟩
    split
    · rename_i b
      exact ⟨_, At_cons.2 ⟨ht, At_cons.2 ⟨ht', At_nil⟩⟩, rfl, .space b⟩
    · trivial
  · lps
    by_cases hlt : s.i + 1 < e.toks.length
    · refine lp_mono (entityRef_sound hlt) ?_
      rintro m s1 ⟨_, ns, a1, a2, a3⟩
      exact ⟨_, At_cons.2 ⟨ht, a1⟩, by simp at a2 ⊢; omega, .model a3⟩
    · -- the last token is `model`, and that is what the rounded reads find
      have hl := lt_of_some ht
      have h0 : min (e.toks.length - 1) (s.i + 1 + 0) = s.i := by omega
      simp only [entityRef, lp_bind, lp_offR, h0, ht]
      intro a ha b hb c hc
      cases ha
      simp only [lp_hasCs, isId, Bool.false_and, Bool.false_eq_true, if_false]
      trivial
  · lps
    refine ⟨fun h => ?_, fun _ => trivial⟩
    obtain ⟨b, rfl, hb⟩ := identEq_iff.1 h
    exact ⟨_, At_cons.2 ⟨ht, At_nil⟩, rfl, .global hb⟩

end Verif.Ql
