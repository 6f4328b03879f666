import Verif.Ql.SoundDdl
import Verif.Ql.SafeDml
/-!
Statements on rows that the parser accepts are in the grammar.
-/
namespace Verif.Ql
open Verif.Lex (Token Symbol Keyword KwStmt KwMisc Lit)
open Verif.Dml (cellOfLit AOp InsData Asn)
open Gr

variable {e : Env} {α : Type}

/-! ### WHERE -/

theorem cget_none_iff {d : Clauses} {k : String} : (cget d k).isNone = true ↔ k ∉ d.map Prod.fst := by
  induction d with
  | nil => simp [cget]
  | cons x d ih =>
    obtain ⟨a, v⟩ := x
    by_cases h : a = k
    · simp [cget, h]
    · simp only [cget, h, if_false, ih, List.map_cons, List.mem_cons, not_or]
      exact ⟨fun h' => ⟨fun h'' => h h''.symm, h'⟩, fun h' => h'.2⟩

theorem mget_none_iff {d : List (String × Cell)} {k : String} : (mget d k).isNone = true ↔ k ∉ d.map Prod.fst := by
  induction d with
  | nil => simp [mget]
  | cons x d ih =>
    obtain ⟨a, v⟩ := x
    by_cases h : a = k
    · simp [mget, h]
    · simp only [mget, h, if_false, ih, List.map_cons, List.mem_cons, not_or]
      exact ⟨fun h' => ⟨fun h'' => h h''.symm, h'⟩, fun h' => h'.2⟩

/-- The operator of a code. -/
theorem op_of_code {a b : Token} (h : opCode a b ≠ 0) :
    Op (if opCode a b % 2 == 0 then [a, b] else [a]) (opCode a b) := by
  cases a with
  | sym x =>
    cases x <;> first
      | (exact absurd rfl h)
      | (exact .eq)
      | (by_cases hb : b = tEq
         · subst hb
           first
             | exact .ne
             | exact .ge
             | exact .le
         · have hb' : (b == tEq) = false := by simpa using hb
           simp only [opCode, hb'] at h ⊢
           first
             | exact absurd rfl h
             | exact .gt
             | exact .lt)
  | _ => exact absurd rfl h

/-- One clause. -/
def OneG (ts : List Token) (x : String × Rel) : Prop :=
  ∃ b os, Op os x.2.opc ∧ x.1 = nm b ∧ ts = .ident b :: (os ++ [.lit x.2.rhs])

theorem tryRel_sound {s : St} :
    lp tryRel e (fun r s' => s'.f = true → s.f = true ∧ ((r = none ∧ s' = s ∧ e.toks.length < s.i + 3) ∨
      ∃ x, r = some x ∧ Read e OneG s x s')) s := by
  simp only [tryRel, parseOperator]
  lps
  refine fun hi => ⟨fun h hf => ⟨hf, .inl ⟨trivial, trivial, by omega⟩⟩, fun _ id hid a ha => ?_⟩
  have key : ∀ b : Token, (a == .sym .opLogicalNot || a == .sym .opComparatorGt || a == .sym .opComparatorLt →
      e.toks[s.i + 1 + 1]? = some b) → 0 < e.toks.length →
      (((s.f && isId id && opCode a b != 0 && litAt e (s.i + 1 + (1 + (opCode a b % 2 == 0).toNat))) = true →
          ∀ t, e.toks[s.i + 1 + (1 + (opCode a b % 2 == 0).toNat)]? = some t →
            ∀ l, t = .lit l → ∀ x, id = .ident x →
              (s.f && isId id && opCode a b != 0 && litAt e (s.i + 1 + (1 + (opCode a b % 2 == 0).toNat))) = true →
              s.f = true ∧ ((some (nm x, Rel.mk (opCode a b) l) = none ∧
                (⟨s.i + 1 + (1 + (opCode a b % 2 == 0).toNat) + 1,
                  s.f && isId id && opCode a b != 0 && litAt e (s.i + 1 + (1 + (opCode a b % 2 == 0).toNat))⟩ : St) = s ∧
                e.toks.length < s.i + 3) ∨
                ∃ y, some (nm x, Rel.mk (opCode a b) l) = some y ∧
                  Read e OneG s y ⟨s.i + 1 + (1 + (opCode a b % 2 == 0).toNat) + 1,
                    s.f && isId id && opCode a b != 0 && litAt e (s.i + 1 + (1 + (opCode a b % 2 == 0).toNat))⟩))) := by
    intro b hb _ hok t ht l hl x hx _
    simp only [Bool.and_eq_true, bne_iff_ne] at hok
    refine ⟨hok.1.1.1, .inr ⟨_, rfl, .ident x :: ((if opCode a b % 2 == 0 then [a, b] else [a]) ++ [.lit l]), ?_, ?_,
      x, _, op_of_code hok.1.2, rfl, rfl⟩⟩
    · subst hx hl
      rw [At_cons, At_append]
      by_cases h2 : (opCode a b % 2 == 0) = true
      · have hbt := hb (opCode_even (by simpa using h2) hok.1.2)
        simp only [h2, if_true, Bool.toNat_true] at ht ⊢
        exact ⟨hid, At_cons.2 ⟨ha, At_cons.2 ⟨hbt, At_nil⟩⟩, At_cons.2 ⟨by simpa [Nat.add_assoc] using ht, At_nil⟩⟩
      · simp only [h2] at ht ⊢
        exact ⟨hid, At_cons.2 ⟨ha, At_nil⟩, At_cons.2 ⟨by simpa [Nat.add_assoc] using ht, At_nil⟩⟩
    · by_cases h2 : (opCode a b % 2 == 0) = true <;> simp [h2] <;> omega
  refine ⟨fun hc b hb h0 => ⟨key b (fun _ => hb) h0, fun h hf => absurd hf h⟩,
    fun hc h0 => ⟨key a (fun h => absurd h hc) h0, fun h hf => absurd hf h⟩⟩

/-- The rest of the clauses. -/
def WTail (more : Bool) (ts : List Token) (cs : Clauses) : Prop :=
  if more then (∃ us k, Where us cs ∧ k ≤ 3 ∧ ts = us ++ List.replicate k (kw .and)) ∨
    (∃ k, k ≤ 2 ∧ ts = List.replicate k (kw .and) ∧ cs = [])
  else ts = [] ∧ cs = []

theorem where_length {ts : List Token} {cs : Clauses} (h : Where ts cs) : 3 ≤ ts.length := by
  cases h with
  | one h => cases h <;> simp
  | more h _ => cases h <;> simp <;> omega

theorem whereLoop_off {n : Nat} {more : Bool} {c : Clauses} {s : St} (hf : s.f = false) :
    lp (whereLoop n more c) e (fun _ s' => s'.f = false) s := by
  cases n with
  | zero => trivial
  | succ n =>
    simp only [whereLoop, lp_bind, lp_loopTt, lp_ite, hf, Bool.and_false]
    exact fun _ => ⟨fun h => by simp at h, fun _ => hf⟩

theorem whereLoop_sound : ∀ (n : Nat) (more : Bool) (c : Clauses) (s : St), Distinct c →
    lp (whereLoop n more c) e (fun r s' => s'.f = true → s.f = true ∧ ∃ cs, r = c ++ cs ∧ Distinct (c ++ cs) ∧
      Read e (WTail more) s cs s') s
  | 0, _, _, _, _ => trivial
  | n + 1, more, c, s, hd => by
    simp only [whereLoop]
    lps
    refine fun hi => ⟨fun hgo => ?_, fun hgo hf => ?_⟩
    · simp only [Bool.and_eq_true, decide_eq_true_eq] at hgo
      obtain ⟨rfl, hlt, hf⟩ := hgo
      refine lp_mono tryRel_sound ?_
      intro r s1 h1
      match r with
      | none =>
        simp only [addClause]
        lps
        intro _
        refine lp_mono (whereLoop_sound n _ _ _ hd) ?_
        intro r s' h hf'
        obtain ⟨hf1, cs, h2, h3, ts, h4, h5, h6⟩ := h hf'
        rcases (h1 hf1).2 with ⟨_, rfl, hl⟩ | ⟨x, hx, _⟩
        · refine ⟨hf, cs, h2, h3, ?_⟩
          by_cases ha : e.toks[s1.i]? = some (kw .and)
          · simp only [ha, decide_true, Bool.toNat_true] at h4 h5
            refine ⟨kw .and :: ts, At_cons.2 ⟨ha, h4⟩, by simp; omega, ?_⟩
            simp only [WTail, ha, decide_true, if_true] at h6 ⊢
            rcases h6 with ⟨us, k, b1, b2, rfl⟩ | ⟨k, hk2, rfl, rfl⟩
            · exfalso
              have := where_length b1
              have := At.le h4 (by have := lt_of_some ha; omega)
              simp at this
              omega
            · have := At.le h4 (by have := lt_of_some ha; omega)
              simp at this
              exact .inr ⟨k + 1, by omega, by rw [List.replicate_succ], rfl⟩
          · simp only [ha, decide_false, Bool.toNat_false, Nat.add_zero] at h4 h5
            simp only [WTail, ha, decide_false] at h6 ⊢
            obtain ⟨rfl, rfl⟩ := h6
            exact ⟨[], At_nil, h5, .inr ⟨0, by omega, rfl, rfl⟩⟩
        · simp at hx
      | some (k, x) =>
        simp only [addClause]
        lps
        intro _
        by_cases hk : (cget c k).isNone = true
        · have hk' := cget_none_iff.1 hk
          refine lp_mono (whereLoop_sound n _ _ _ (distinct_snoc hd hk')) ?_
          intro r s' h hf'
          obtain ⟨hf1, cs, h2, h3, ts, h4, h5, h6⟩ := h hf'
          simp only [Bool.and_eq_true] at hf1
          rcases (h1 hf1.1).2 with ⟨hx, _⟩ | ⟨y, hy, us, a1, a2, a3⟩
          · simp at hx
          cases hy
          refine ⟨hf, (k, x) :: cs, by simpa using h2, by simpa using h3, ?_⟩
          obtain ⟨b, os, b1, rfl, rfl⟩ := a3
          simp only at b1
          by_cases ha : e.toks[s1.i]? = some (kw .and)
          · simp only [ha, decide_true, Bool.toNat_true] at h4 h5
            rw [a2] at ha h4
            refine ⟨.ident b :: (os ++ [.lit x.rhs]) ++ kw .and :: ts, At_append.2 ⟨a1, At_cons.2 ⟨ha, h4⟩⟩, by simp at a2 ⊢; omega, ?_⟩
            rw [← a2] at ha
            simp only [WTail, ha, decide_true, if_true] at h6 ⊢
            rcases h6 with ⟨us, k, c1, c2, rfl⟩ | ⟨k, hk2, rfl, rfl⟩
            · exact .inl ⟨_, k, .more b1 c1, c2, by simp⟩
            · exact .inl ⟨_, k + 1, .one b1, by omega, by simp [List.replicate_succ]⟩
          · simp only [ha, decide_false, Bool.toNat_false, Nat.add_zero] at h4 h5
            simp only [WTail, ha, decide_false] at h6
            obtain ⟨rfl, rfl⟩ := h6
            refine ⟨_, a1, by simp at h5; omega, ?_⟩
            simp only [WTail, if_true]
            exact .inl ⟨_, 0, .one b1, by omega, by simp⟩
        · have hk : (cget c k).isNone = false := Bool.eq_false_iff.2 hk
          rw [hk]
          simp only [Bool.and_false]
          refine lp_mono (whereLoop_off rfl) fun _ s' h hf' => ?_
          simp [h] at hf'
    · refine ⟨hf, [], by simp, by simpa using hd, [], At_nil, rfl, ?_⟩
      cases more
      · simp [WTail]
      · exact .inr ⟨0, by omega, rfl, rfl⟩

theorem parseWhere_sound {s : St} :
    lp parseWhere e (fun r s' => s'.f = true → s.f = true ∧ Read e Clause s r s') s := by
  simp only [parseWhere]
  lps
  refine lp_mono (whereLoop_sound _ _ _ _ (by simp [Distinct])) ?_
  intro r s' h hf
  simp only [Bool.and_eq_true, Bool.not_eq_true', List.isEmpty_eq_false_iff] at hf
  obtain ⟨hf0, cs, h1, h2, ts, h3, h4, h5⟩ := h hf.1
  simp only [List.nil_append] at h1 h2
  subst h1
  refine ⟨hf0, ts, h3, h4, ?_⟩
  simp only [WTail, if_true] at h5
  rcases h5 with ⟨us, k, a1, a2, rfl⟩ | ⟨_, _, _, a⟩
  · exact .mk a1 h2 a2
  · exact absurd a hf.2

/-! ### INSERT -/

/-- The functions of a session. -/
def calls (e : Env) : Calls := fun b i => (ldfunc b).map (produce e i)

/-- The hash of the names is perfect: each of the three functions is found, and nothing else. -/
theorem ldfunc_iff (f : Bytes) (p : Nat) : ldfunc f = some p ↔ prodF[p]? = some f := by
  constructor
  · intro h
    simp only [ldfunc] at h
    split at h
    · rename_i hp
      cases h
      exact hp
    · cases h
  · intro h
    match p, h with
    | 0, h => cases h; decide +kernel
    | 1, h => cases h; decide +kernel
    | 2, h => cases h; decide +kernel
    | n + 3, h => simp [prodF] at h

/-- What the functions give. -/
theorem calls_iff (e : Env) (b : Bytes) (i : Nat) (c : Cell) : calls e b i = some c ↔
    (b = Lex.ascii "uuidstr" ∧ c = .str (e.uuidStr i)) ∨ (b = Lex.ascii "uuidbin" ∧ c = .bin (e.uuidBin i)) ∨
    (b = Lex.ascii "timesec" ∧ c = .uint .uint64 (e.time i)) := by
  simp only [calls, Option.map_eq_some_iff, ldfunc_iff]
  constructor
  · rintro ⟨p, h, rfl⟩
    match p, h with
    | 0, h => cases h; exact .inl ⟨rfl, rfl⟩
    | 1, h => cases h; exact .inr (.inl ⟨rfl, rfl⟩)
    | 2, h => cases h; exact .inr (.inr ⟨rfl, rfl⟩)
    | n + 3, h => simp [prodF] at h
  · rintro (⟨rfl, rfl⟩ | ⟨rfl, rfl⟩ | ⟨rfl, rfl⟩)
    · exact ⟨0, rfl, rfl⟩
    · exact ⟨1, rfl, rfl⟩
    · exact ⟨2, rfl, rfl⟩

theorem funcSub_sound {s : St} (h : fnAt e s.i = true) :
    lp funcSub e (fun r s' => s'.f = s.f ∧ ∃ b, At e s.i [.ident b, tOP, tCP] ∧ s'.i = s.i + 3 ∧ r = calls e b (s.i + 3)) s := by
  simp only [fnAt, Bool.and_eq_true, decide_eq_true_eq] at h
  simp only [funcSub]
  lps
  intro t ht b hb
  subst hb
  exact ⟨rfl, b, At_cons.2 ⟨ht, At_cons.2 ⟨h.1.2, At_cons.2 ⟨h.2, At_nil⟩⟩⟩, rfl, rfl⟩

/-- What is known of the elements of a list so far: `prev` is the class of the elements of the lists in it. -/
structure Kinds (prev : Option TagClass) (l : List Cell) : Prop where
  one : ∀ x ∈ l, ∀ y ∈ l, x.kind = y.kind
  inner : ∀ xs, .list xs ∈ l → ∀ x ∈ xs, prev = some x.kind

theorem Kinds.uniform {prev : Option TagClass} {l : List Cell} (h : Kinds prev l) : Uniform l :=
  ⟨h.one, fun xs ys hx hy x h1 y h2 => by
    have a := h.inner xs hx x h1
    have b := h.inner ys hy y h2
    rw [a] at b
    exact Option.some.inj b⟩

theorem Kinds.nil {prev : Option TagClass} : Kinds prev [] := ⟨by simp, by simp⟩

theorem Kinds.one_snoc {prev : Option TagClass} {l : List Cell} {d : Cell} (h : Kinds prev l) (hd : sameAsHead d l = true) :
    ∀ x ∈ l ++ [d], ∀ y ∈ l ++ [d], x.kind = y.kind := by
  have key : ∀ x ∈ l, x.kind = d.kind := by
    cases l with
    | nil => simp
    | cons z l =>
      simp only [sameAsHead, beq_iff_eq] at hd
      intro x hx
      rw [hd]
      exact h.one x hx z (by simp)
  intro x hx y hy
  simp only [List.mem_append, List.mem_singleton] at hx hy
  rcases hx with hx | rfl <;> rcases hy with hy | rfl
  · exact h.one x hx y hy
  · exact key x hx
  · exact (key y hy).symm
  · rfl

theorem Kinds.snoc {prev : Option TagClass} {l : List Cell} {d : Cell} (h : Kinds prev l) (hd : sameAsHead d l = true)
    (hn : ∀ xs, d ≠ .list xs) : Kinds prev (l ++ [d]) := by
  refine ⟨h.one_snoc hd, fun xs hx => ?_⟩
  simp only [List.mem_append, List.mem_singleton] at hx
  rcases hx with hx | hx
  · exact h.inner xs hx
  · exact absurd hx.symm (hn xs)

theorem Kinds.snocList {prev dscr : Option TagClass} {l nl : List Cell} (h : Kinds prev l) (hd : sameAsHead (.list nl) l = true)
    (hp : (prev.isNone || dscr.isNone || prev == dscr) = true) (hk : ∀ x ∈ nl, dscr = some x.kind) :
    Kinds (if prev.isNone && dscr.isSome then dscr else prev) (l ++ [.list nl]) := by
  refine ⟨h.one_snoc hd, fun xs hx x hxx => ?_⟩
  simp only [List.mem_append, List.mem_singleton] at hx
  rcases hx with hx | hx
  · have := h.inner xs hx x hxx
    subst this
    simp
  · cases hx
    have := hk x hxx
    subst this
    cases prev with
    | none => simp
    | some p => simpa using hp

/-- The rest of a list. -/
def ElemsTail (c : Calls) (stop : Bool) (i : Nat) (ts : List Token) (l : List Cell) : Prop :=
  if stop then ts = [] ∧ l = [] else Elems c i ts l

theorem cellOfLit_ne_list {l : Lit} {xs : List Cell} : cellOfLit l ≠ .list xs := by cases l <;> simp [cellOfLit]

theorem calls_ne_list {b : Bytes} {i : Nat} {v : Cell} (h : calls e b i = some v) {xs : List Cell} : v ≠ .list xs := by
  simp only [calls, Option.map_eq_some_iff] at h
  obtain ⟨k, _, rfl⟩ := h
  unfold produce
  split <;> simp

/-- What an accepting run of `parse_list` has read, unless the query is cut off. -/
def ListOk (e : Env) (stop : Bool) (l : List Cell) (s : St) (r : Option TagClass × List Cell) (s' : St) : Prop :=
  s'.f = true → s.f = true ∧ (s'.i < e.toks.length →
    ∃ l', r.2 = l ++ l' ∧ Uniform r.2 ∧ (∀ x ∈ r.2, r.1 = some x.kind) ∧ Read e (ElemsTail (calls e) stop s.i) s l' s')

theorem parseList_off {n : Nat} {stop : Bool} {ov prev : Option TagClass} {l : List Cell} {s : St} (hf : s.f = false) :
    lp (parseList n stop ov prev l) e (fun _ s' => s'.f = false) s := by
  cases n with
  | zero => trivial
  | succ n =>
    simp only [parseList, lp_bind, lp_loopTt, lp_ite, hf, Bool.and_false]
    exact fun _ => ⟨fun h => by simp at h, fun _ => hf⟩

theorem parseList_sound : ∀ (n : Nat) (stop : Bool) (ov prev : Option TagClass) (l : List Cell) (s : St),
    Kinds prev l → (∀ x ∈ l, ov = some x.kind) →
    lp (parseList n stop ov prev l) e (ListOk e stop l s) s
  | 0, _, _, _, _, _, _, _ => trivial
  | n + 1, stop, ov, prev, l, s, hk, hov => by
    simp only [parseList]
    lps
    refine fun hi => ⟨fun hgo t ht => ?_, fun hgo hf => ⟨hf, fun hlt => ?_⟩⟩
    · simp only [Bool.and_eq_true, decide_eq_true_eq, Bool.not_eq_true'] at hgo
      obtain ⟨⟨hlt, hf⟩, rfl⟩ := hgo
      have cont : ∀ (r : Option (Cell × Option TagClass)) (s1 : St),
          (s1.f = true → r ≠ none) →
          (s1.f = true → s1.i < e.toks.length → ∀ d p, r = some (d, p) → Read e (Elem (calls e) s.i) s d s1 ∧
            (sameAsHead d l = true → Kinds p (l ++ [d]))) →
          lp (match r with
            | none => pure (ov, l)
            | some (d, prev) => do
              poisonIfNot (sameAsHead d l)
              let nxComma ← roundedEq tComma
              let nxClose ← roundedEq tCS
              poisonIfNot (nxComma || nxClose)
              let ok ← okay
              aheadIf ok
              parseList n nxClose (some d.kind) prev (l ++ [d])) e (ListOk e false l s) s1 := by
        intro r s1 h1 h2
        match r with
        | none => exact fun hf1 => absurd rfl (h1 hf1)
        | some (d, p) =>
          lps
          intro _ _
          by_cases hok : (s1.f && sameAsHead d l && (decide (e.toks[s1.i]? = some tComma) || decide (e.toks[s1.i]? = some tCS))) = true
          · simp only [Bool.and_eq_true, Bool.or_eq_true, decide_eq_true_eq] at hok
            obtain ⟨⟨hf1, hh1⟩, hnx⟩ := hok
            have hlt1 : s1.i < e.toks.length := by rcases hnx with h | h <;> exact lt_of_some h
            obtain ⟨⟨ts, a1, a2, a3⟩, a4⟩ := h2 hf1 hlt1 d p rfl
            have a4 := a4 hh1
            refine lp_mono (parseList_sound n _ _ _ _ _ a4 ?_) ?_
            · intro x hx
              rw [a4.one d (by simp) x hx]
            · intro r s' h hf'
              obtain ⟨_, h⟩ := h hf'
              refine ⟨hf, fun hlt' => ?_⟩
              obtain ⟨l', b1, b2, b3, us, b4, b5, b6⟩ := h hlt'
              refine ⟨d :: l', by rw [b1]; simp, b2, b3, ?_⟩
              by_cases hc : e.toks[s1.i]? = some tCS
              · simp only [ElemsTail, hc, decide_true, if_true] at b6
                obtain ⟨rfl, rfl⟩ := b6
                simp only [hf1, hh1, hc, decide_true, Bool.or_true, Bool.and_self, Bool.toNat_true] at b5
                rw [a2] at hc
                refine ⟨ts ++ [tCS], At_append.2 ⟨a1, At_cons.2 ⟨hc, At_nil⟩⟩, by simp at b5 ⊢; omega, ?_⟩
                exact .last a3
              · have hc' := hnx.resolve_right hc
                simp only [ElemsTail, hc, decide_false] at b6
                simp only [hf1, hh1, hc', decide_true, Bool.true_or, Bool.and_self, Bool.toNat_true] at b4 b5 b6
                rw [a2] at hc' b4 b6
                refine ⟨ts ++ tComma :: us, At_append.2 ⟨a1, At_cons.2 ⟨hc', b4⟩⟩, by simp at b5 ⊢; omega, ?_⟩
                exact .more a3 b6
          · rw [Bool.eq_false_iff.2 hok]
            refine lp_mono (parseList_off rfl) fun _ s' h hf' => ?_
            simp [h] at hf'
      refine lp_mono (Q := fun r s1 => (s1.f = true → r ≠ none) ∧
          (s1.f = true → s1.i < e.toks.length → ∀ d p, r = some (d, p) → Read e (Elem (calls e) s.i) s d s1 ∧
            (sameAsHead d l = true → Kinds p (l ++ [d])))) ?_ (fun r s1 h => cont r s1 h.1 h.2)
      split
      · rename_i x
        lps
        refine ⟨fun _ => by simp, fun _ _ d p hd => ?_⟩
        cases hd
        exact ⟨⟨[.lit x], At_cons.2 ⟨ht, At_nil⟩, rfl, .lit x⟩, fun h => hk.snoc h fun _ => cellOfLit_ne_list⟩
      · lps
        intro hlt'
        refine lp_mono (parseList_sound n _ _ _ _ _ .nil (by simp)) ?_
        rintro ⟨dscr, nl⟩ s1 h
        refine ⟨fun _ => by simp, fun hf1 hlt1 d p hd => ?_⟩
        simp only [Bool.and_eq_true] at hf1
        obtain ⟨_, h⟩ := h hf1.1
        obtain ⟨l', b1, b2, b3, us, b4, b5, b6⟩ := h hlt1
        simp only [List.nil_append] at b1 b2 b3
        subst b1
        cases hd
        refine ⟨?_, fun hh => hk.snocList hh hf1.2 b3⟩
        by_cases hc : e.toks[s.i + 1]? = some tCS
        · simp only [ElemsTail, hc, decide_true, if_true] at b6
          obtain ⟨rfl, rfl⟩ := b6
          simp only [hc, decide_true, Bool.toNat_true] at b5
          exact ⟨[tOS, tCS], At_cons.2 ⟨ht, At_cons.2 ⟨hc, At_nil⟩⟩, by simp at b5 ⊢; omega, .empty⟩
        · simp only [ElemsTail, hc, decide_false] at b6
          simp only [hc, decide_false, Bool.toNat_false, Nat.add_zero] at b4 b5 b6
          exact ⟨tOS :: us, At_cons.2 ⟨ht, b4⟩, by simp at b5 ⊢; omega, .list b6 b2⟩
      · lps
        refine fun _ => ⟨fun hsig => ?_, fun _ => ?_⟩
        · refine lp_mono (funcSub_sound hsig) ?_
          rintro v s1 ⟨a1, b, a2, a3, a4⟩
          split
          · rename_i v
            lps
            refine ⟨fun _ => by simp, fun _ _ d p hd => ?_⟩
            cases hd
            exact ⟨⟨[tAt, .ident b, tOP, tCP], At_cons.2 ⟨ht, a2⟩, by simp at a3 ⊢; omega, .call a4.symm⟩,
              fun h => hk.snoc h fun _ => calls_ne_list a4.symm⟩
          · lps
            simp
        · intro _
          simp
      · lps
        intro _
        simp
    · simp only [Bool.and_eq_true, decide_eq_true_eq, Bool.not_eq_true', not_and, Bool.not_eq_false] at hgo
      have := hgo ⟨hlt, hf⟩
      subst this
      exact ⟨[], by simp, hk.uniform, hov, [], At_nil, rfl, by simp [ElemsTail]⟩

/-- A list after its bracket. -/
theorem list_sound {s : St} : lp list e (fun l s' => s'.f = true → s.f = true ∧ (s'.i < e.toks.length →
    ∀ i, s.i = i + 1 → Read e (fun ts l => Elem (calls e) i (tOS :: ts) (.list l)) s l s')) s := by
  simp only [list]
  lps
  intro hlt
  refine lp_mono (parseList_sound _ _ _ _ _ _ .nil (by simp)) ?_
  rintro ⟨dscr, nl⟩ s1 h hf1
  obtain ⟨hf, h⟩ := h hf1
  refine ⟨hf, fun hlt1 i hi => ?_⟩
  obtain ⟨l', b1, b2, b3, us, b4, b5, b6⟩ := h hlt1
  simp only [List.nil_append] at b1 b2
  subst b1
  by_cases hc : e.toks[s.i]? = some tCS
  · simp only [ElemsTail, hc, decide_true, if_true] at b6
    obtain ⟨rfl, rfl⟩ := b6
    simp only [hc, decide_true, Bool.toNat_true] at b5
    exact ⟨[tCS], At_cons.2 ⟨hc, At_nil⟩, by simp at b5 ⊢; omega, .empty⟩
  · simp only [ElemsTail, hc, decide_false] at b6
    simp only [hc, decide_false, Bool.toNat_false, Nat.add_zero] at b4 b5 b6
    rw [hi] at b6
    exact ⟨us, b4, b5, .list b6 b2⟩

/-- A value after its first token. -/
theorem value_sound {s : St} {i : Nat} {t : Token} (hi : s.i = i + 1) :
    lp (value t) e (fun r s' => s'.f = true → s.f = true ∧ (s'.i < e.toks.length → ∀ v, r = .val v →
      Read e (fun ts v => Datum (calls e) i (t :: ts) v) s v s')) s := by
  unfold value
  split
  · lps
    refine fun hf => ⟨hf, fun _ v hv => ?_⟩
    cases hv
    exact ⟨[], At_nil, rfl, .elem (.lit _)⟩
  · lps
    refine fun _ => ⟨fun _ => ?_, fun _ hf => ⟨hf, fun _ v hv => by cases hv⟩⟩
    refine lp_mono list_sound fun l s1 h hf1 => ?_
    obtain ⟨hf, h⟩ := h hf1
    refine ⟨hf, fun hlt v hv => ?_⟩
    cases hv
    obtain ⟨ts, a1, a2, a3⟩ := h hlt i hi
    exact ⟨ts, a1, a2, .elem a3⟩
  · lps
    refine fun hf => ⟨hf, fun _ v hv => ?_⟩
    cases hv
    exact ⟨[], At_nil, rfl, .null⟩
  · lps
    refine fun _ => ⟨fun hsig => ?_, fun _ hf => ⟨hf, fun _ v hv => by cases hv⟩⟩
    refine lp_mono (funcSub_sound hsig) ?_
    rintro v s1 ⟨a1, b, a2, a3, a4⟩
    split
    · refine fun hf => ⟨a1 ▸ hf, fun _ v' hv => ?_⟩
      cases hv
      rw [hi] at a4
      exact ⟨[.ident b, tOP, tCP], a2, a3, .elem (.call a4.symm)⟩
    · exact fun hf => ⟨a1 ▸ hf, fun _ v' hv => by cases hv⟩
  · lps
    exact fun hf => ⟨hf, fun _ v hv => by cases hv⟩

theorem tupleLoop_off {n : Nat} {stop : Bool} {l : List Cell} {s : St} (hf : s.f = false) :
    lp (tupleLoop n stop l) e (fun _ s' => s'.f = false) s := by
  cases n with
  | zero => trivial
  | succ n =>
    simp only [tupleLoop, lp_bind, lp_loopTt, lp_ite, hf, Bool.and_false]
    exact fun _ => ⟨fun h => by simp at h, fun _ => hf⟩

/-- The rest of the values by position. -/
def TupleTail (e : Env) (stop : Bool) (i : Nat) (ts : List Token) (l : List Cell) : Prop :=
  if stop then ts = [] ∧ l = [] else Tuple (calls e) i ts l ∨ (ts = [] ∧ l = [] ∧ i = e.toks.length)

theorem tupleLoop_sound : ∀ (n : Nat) (stop : Bool) (l : List Cell) (s : St),
    lp (tupleLoop n stop l) e (fun r s' => s'.f = true → s.f = true ∧ ∃ l', r = l ++ l' ∧
      Read e (TupleTail e stop s.i) s l' s') s
  | 0, _, _, _ => trivial
  | n + 1, stop, l, s => by
    simp only [tupleLoop]
    lps
    refine fun hi => ⟨fun hgo t ht => ?_, fun hgo hf => ⟨hf, [], by simp, [], At_nil, rfl, ?_⟩⟩
    · simp only [Bool.and_eq_true, decide_eq_true_eq, Bool.not_eq_true'] at hgo
      obtain ⟨⟨hlt, hf⟩, rfl⟩ := hgo
      refine lp_mono (value_sound (i := s.i) rfl) fun v s1 h1 => ?_
      split
      · rename_i v
        lps
        intro _ _
        by_cases hok : (s1.f && (decide (e.toks[s1.i]? = some tComma) || decide (e.toks[s1.i]? = some tCP))) = true
        · refine lp_mono (tupleLoop_sound n _ _ _) fun r s' h hf' => ?_
          simp only [Bool.and_eq_true, Bool.or_eq_true, decide_eq_true_eq] at hok
          obtain ⟨hf1, hnx⟩ := hok
          have hlt1 : s1.i < e.toks.length := by rcases hnx with h | h <;> exact lt_of_some h
          obtain ⟨ts, a1, a2, a3⟩ := (h1 hf1).2 hlt1 v rfl
          obtain ⟨_, l', b1, us, b4, b5, b6⟩ := h hf'
          simp only at a1 a2
          have a2' : s1.i = s.i + (t :: ts).length := by simp; omega
          have a1' : At e s.i (t :: ts) := At_cons.2 ⟨ht, a1⟩
          refine ⟨hf, v :: l', by rw [b1]; simp, ?_⟩
          by_cases hc : e.toks[s1.i]? = some tCP
          · simp only [TupleTail, hc, decide_true, if_true] at b6
            obtain ⟨rfl, rfl⟩ := b6
            simp only [hf1, hc, decide_true, Bool.or_true, Bool.and_self, Bool.toNat_true] at b5
            rw [a2'] at hc
            refine ⟨t :: ts ++ [tCP], At_append.2 ⟨a1', At_cons.2 ⟨hc, At_nil⟩⟩, by simp at b5 ⊢; omega, ?_⟩
            exact .inl (.last a3)
          · have hc' := hnx.resolve_right hc
            simp only [TupleTail, hc, decide_false] at b6
            simp only [hf1, hc', decide_true, Bool.true_or, Bool.and_self, Bool.toNat_true] at b4 b5 b6
            rw [a2'] at hc' b4 b6
            refine ⟨t :: ts ++ tComma :: us, At_append.2 ⟨a1', At_cons.2 ⟨hc', b4⟩⟩, by simp at b5 ⊢; omega, ?_⟩
            rcases b6 with b6 | ⟨rfl, rfl, _⟩
            · exact .inl (.more a3 b6)
            · exact .inl (.cut a3)
        · rw [Bool.eq_false_iff.2 hok]
          refine lp_mono (tupleLoop_off rfl) fun _ s' h hf' => ?_
          simp [h] at hf'
      · lps
        simp
      · lps
        intro _
        simp
    · simp only [Bool.and_eq_true, decide_eq_true_eq, Bool.not_eq_true', not_and, Bool.not_eq_false] at hgo
      cases stop
      · refine .inr ⟨rfl, rfl, ?_⟩
        have : ¬ s.i < e.toks.length := fun h => by simpa using hgo ⟨h, hf⟩
        omega
      · exact ⟨rfl, rfl⟩

theorem mapLoop_off {n : Nat} {stop : Bool} {l : List (String × Cell)} {s : St} (hf : s.f = false) :
    lp (mapLoop n stop l) e (fun _ s' => s'.f = false) s := by
  cases n with
  | zero => trivial
  | succ n =>
    simp only [mapLoop, lp_bind, lp_remaining, lp_okay, lp_ite, hf, Bool.and_false, Bool.false_and]
    exact fun _ => ⟨fun h => by simp at h, fun _ => hf⟩

/-- The rest of the values by name. -/
def NamedTail (e : Env) (stop : Bool) (i : Nat) (ts : List Token) (l : List (String × Cell)) : Prop :=
  if stop then ts = [] ∧ l = [] else Named (calls e) i ts l ∨ (ts = [] ∧ l = [])

theorem mapLoop_sound : ∀ (n : Nat) (stop : Bool) (l : List (String × Cell)) (s : St), Distinct l →
    lp (mapLoop n stop l) e (fun r s' => s'.f = true → s.f = true ∧ ∃ l', r = l ++ l' ∧ Distinct r ∧
      Read e (NamedTail e stop s.i) s l' s') s
  | 0, _, _, _, _ => trivial
  | n + 1, stop, l, s, hd => by
    simp only [mapLoop]
    lps
    refine fun hi => ⟨fun hgo fld hfld col hcol t ht => ?_, fun hgo hf => ⟨hf, [], by simp, hd, [], At_nil, rfl, ?_⟩⟩
    · simp only [Bool.and_eq_true, decide_eq_true_eq, Bool.not_eq_true'] at hgo
      obtain ⟨⟨hlt, hf⟩, rfl⟩ := hgo
      split
      · rename_i b
        lps
        refine lp_mono (value_sound (i := s.i + 1 + 1) rfl) fun v s1 h1 => ?_
        split
        · rename_i v
          lps
          intro _ _
          by_cases hok : (s1.f && (mget l (nm b)).isNone &&
              (decide (e.toks[s1.i]? = some tComma) || decide (e.toks[s1.i]? = some tCB))) = true
          · simp only [Bool.and_eq_true, Bool.or_eq_true, decide_eq_true_eq] at hok
            obtain ⟨⟨hf1, hk⟩, hnx⟩ := hok
            refine lp_mono (mapLoop_sound n _ _ _ (distinct_snoc hd (mget_none_iff.1 hk))) fun r s' h hf' => ?_
            have hlt1 : s1.i < e.toks.length := by rcases hnx with h | h <;> exact lt_of_some h
            obtain ⟨h0, h1⟩ := h1 hf1
            simp only [Bool.and_eq_true, beq_iff_eq] at h0
            obtain ⟨_, rfl⟩ := h0
            obtain ⟨ts, a1, a2, a3⟩ := h1 hlt1 v rfl
            obtain ⟨_, l', b1, b2, us, b4, b5, b6⟩ := h hf'
            simp only at a1 a2
            have a2' : s1.i = s.i + 1 + 1 + (t :: ts).length := by simp; omega
            have a1' : At e (s.i + 1 + 1) (t :: ts) := At_cons.2 ⟨ht, a1⟩
            refine ⟨hf, (nm b, v) :: l', by rw [b1]; simp, b2, ?_⟩
            have pre : ∀ ws, At e (s.i + 1 + 1 + (t :: ts).length) ws → At e s.i (.ident b :: tColon :: (t :: ts ++ ws)) :=
              fun ws hw => At_cons.2 ⟨hfld, At_cons.2 ⟨hcol, At_append.2 ⟨a1', hw⟩⟩⟩
            by_cases hc : e.toks[s1.i]? = some tCB
            · simp only [NamedTail, hc, decide_true, if_true] at b6
              obtain ⟨rfl, rfl⟩ := b6
              simp only [hf1, hk, hc, decide_true, Bool.or_true, Bool.and_self, Bool.toNat_true] at b5
              rw [a2'] at hc
              refine ⟨_, pre [tCB] (At_cons.2 ⟨hc, At_nil⟩), by simp at b5 ⊢; omega, ?_⟩
              exact .inl (.last a3)
            · have hc' := hnx.resolve_right hc
              simp only [NamedTail, hc, decide_false] at b6
              simp only [hf1, hk, hc', decide_true, Bool.true_or, Bool.and_self, Bool.toNat_true] at b4 b5 b6
              rw [a2'] at hc' b4 b6
              refine ⟨_, pre (tComma :: us) (At_cons.2 ⟨hc', b4⟩), by simp at b5 ⊢; omega, ?_⟩
              rcases b6 with b6 | ⟨rfl, rfl⟩
              · exact .inl (.more a3 b6)
              · exact .inl (.cut a3)
          · rw [Bool.eq_false_iff.2 hok]
            refine lp_mono (mapLoop_off rfl) fun _ s' h hf' => ?_
            simp [h] at hf'
        · lps
          simp
        · lps
          intro _
          simp
      · lps
        intro _
        simp
    · cases stop
      · exact .inr ⟨rfl, rfl⟩
      · exact ⟨rfl, rfl⟩

theorem insertStmt_sound {s : St} (hs : s.i = 1) :
    lp insertStmt e (fun r s' => s'.i = e.toks.length → Read e (fun ts q => Dml e.cs (calls e) (.kw (.statement .insert) :: ts) q) s r s') s := by
  simp only [insertStmt, tuple, dataMap]
  lps
  refine fun hi => ⟨fun _ => trivial, fun h5 hlt => ?_⟩
  refine lp_mono entityBuffered_sound fun m s1 hm t ht hi1 => ?_
  have fin : ∀ (d : InsData) (us : List Token) (j : Nat) (f : Bool), f = true → s1.f = true →
      At e (s1.i + 1) us → j = s1.i + 1 + us.length → Data (calls e) s1.i (t :: us) d → ∀ x, m = some x →
      Read e (fun ts q => Dml e.cs (calls e) (.kw (.statement .insert) :: ts) q) s ⟨x.1, x.2, .insert d⟩ ⟨j, f⟩ := by
    intro d us j f _ hf1 a1 a2 a3 x hx
    obtain ⟨b1, y, b2, ns, b3, b4, b5⟩ := hm hf1
    simp only [Bool.and_eq_true, decide_eq_true_eq] at b1
    rw [b2] at hx
    cases hx
    simp only at b3 b4
    rw [b4] at ht a1 a3
    refine ⟨kw .into :: (ns ++ t :: us), At_cons.2 ⟨b1.2, At_append.2 ⟨b3, At_cons.2 ⟨ht, a1⟩⟩⟩, by simp; omega, ?_⟩
    rw [show s.i + 1 = 2 by omega] at a3
    exact .insert b5 a3
  refine ⟨fun hc => ?_, fun _ => ⟨fun hc => ?_, fun _ => ⟨fun h => by simp at h, fun _ => trivial⟩⟩⟩
  · simp only [Bool.and_eq_true, beq_iff_eq, decide_eq_true_eq] at hc
    obtain ⟨rfl, hlt1⟩ := hc
    intro _
    refine lp_mono (tupleLoop_sound _ _ _ _) fun r s2 h => ⟨fun hf2 d hd x hx hend => ?_, fun _ => trivial⟩
    cases hd
    obtain ⟨hf1, l', a1, us, a2, a3, a4⟩ := h hf2
    simp only [List.nil_append] at a1 hf1
    subst a1
    by_cases hc : e.toks[s1.i + 1]? = some tCP
    · simp only [TupleTail, hc, decide_true, if_true] at a4
      obtain ⟨rfl, rfl⟩ := a4
      simp only [hc, decide_true, Bool.toNat_true] at a3
      exact fin _ [tCP] s2.i s2.f hf2 hf1 (At_cons.2 ⟨hc, At_nil⟩) (by simp at a3 ⊢; omega) .noValues x hx
    · simp only [TupleTail, hc, decide_false] at a4
      simp only [hc, decide_false, Bool.toNat_false, Nat.add_zero] at a2 a3 a4
      rcases a4 with a4 | ⟨_, _, a4⟩
      · exact fin _ us s2.i s2.f hf2 hf1 a2 a3 (.tuple a4) x hx
      · omega
  · simp only [Bool.and_eq_true, beq_iff_eq, decide_eq_true_eq] at hc
    obtain ⟨rfl, hlt1⟩ := hc
    intro _
    refine lp_mono (mapLoop_sound _ _ _ _ (by simp [Distinct])) fun r s2 h => ⟨fun hf2 d hd x hx hend => ?_, fun _ => trivial⟩
    cases hd
    obtain ⟨hf1, l', a1, a1', us, a2, a3, a4⟩ := h hf2
    simp only [List.nil_append] at a1 hf1
    subst a1
    by_cases hc : e.toks[s1.i + 1]? = some tCB
    · simp only [NamedTail, hc, decide_true, if_true] at a4
      obtain ⟨rfl, rfl⟩ := a4
      simp only [hc, decide_true, Bool.toNat_true] at a3
      exact fin _ [tCB] s2.i s2.f hf2 hf1 (At_cons.2 ⟨hc, At_nil⟩) (by simp at a3 ⊢; omega) .noNames x hx
    · simp only [NamedTail, hc, decide_false] at a4
      simp only [hc, decide_false, Bool.toNat_false, Nat.add_zero] at a2 a3 a4
      rcases a4 with a4 | ⟨rfl, _⟩
      · exact fin _ us s2.i s2.f hf2 hf1 a2 a3 (.named a4 a1') x hx
      · simp at a3
        omega

/-! ### SELECT -/

theorem colNames_ident {ts : List Token} {ns : List String} (h : ColNames ts ns) : ∃ b us, ts = .ident b :: us := by
  cases h <;> exact ⟨_, _, rfl⟩

theorem colLoop_sound : ∀ (n : Nat) (cols : List String) (s : St),
    lp (colLoop n cols) e (fun r s' => s'.f = true → s.f = true ∧ ∃ ns, r = cols ++ ns ∧
      Read e (fun ts ns => ColNames ts ns ∨ (ts = [] ∧ ns = [])) s ns s') s
  | 0, _, _ => trivial
  | n + 1, cols, s => by
    simp only [colLoop]
    lps
    refine fun hi => ⟨fun hgo t ht => ?_, fun hgo hf => ⟨hf, [], by simp, [], At_nil, rfl, .inr ⟨rfl, rfl⟩⟩⟩
    simp only [Bool.and_eq_true, decide_eq_true_eq] at hgo
    split
    · rename_i b
      lps
      intro _ _
      refine lp_mono (colLoop_sound n _ _) fun r s' h hf' => ?_
      obtain ⟨a0, ns, a1, ts, a2, a3, a4⟩ := h hf'
      simp only [Bool.and_eq_true, Bool.or_eq_true, decide_eq_true_eq] at a0
      refine ⟨hgo.2, nm b :: ns, by rw [a1]; simp, ?_⟩
      by_cases hc : e.toks[s.i + 1]? = some tComma
      · simp only [hc, decide_true, Bool.toNat_true] at a2 a3
        refine ⟨.ident b :: tComma :: ts, At_cons.2 ⟨ht, At_cons.2 ⟨hc, a2⟩⟩, by simp; omega, .inl ?_⟩
        rcases a4 with a4 | ⟨rfl, rfl⟩
        · exact .more a4
        · exact .comma b
      · have hc' := a0.2.resolve_left hc
        simp only [hc, decide_false, Bool.toNat_false, Nat.add_zero] at a2 a3
        rcases a4 with a4 | ⟨rfl, rfl⟩
        · obtain ⟨b', us, rfl⟩ := colNames_ident a4
          have := (At_cons.1 a2).1
          rw [hc'] at this
          cases this
        · exact ⟨[.ident b], At_cons.2 ⟨ht, At_nil⟩, by simp at a3 ⊢; omega, .inl (.last b)⟩
    · exact fun hf => ⟨hf, [], by simp, [], At_nil, rfl, .inr ⟨rfl, rfl⟩⟩

theorem columns_sound {s : St} :
    lp columns e (fun r s' => s'.f = true → s.f = true ∧ Read e Cols s r s') s := by
  simp only [columns]
  lps
  refine fun hi => ⟨fun hw hf => ?_, fun hw => ?_⟩
  · simp only [decide_eq_true_eq] at hw
    simp only [hw, decide_true, Bool.toNat_true]
    exact ⟨hf, [tStar], At_cons.2 ⟨hw, At_nil⟩, rfl, .star⟩
  · simp only [decide_eq_true_eq] at hw
    simp only [hw, decide_false, Bool.toNat_false, Nat.add_zero]
    refine lp_mono (colLoop_sound _ _ _) fun r s' h hf' => ?_
    simp only [Bool.and_eq_true, Bool.not_eq_true', List.isEmpty_eq_false_iff] at hf'
    obtain ⟨hf, ns, a1, ts, a2, a3, a4⟩ := h hf'.1
    simp only [List.nil_append] at a1
    subst a1
    rcases a4 with a4 | ⟨_, rfl⟩
    · exact ⟨hf, ts, a2, a3, .names a4⟩
    · exact absurd rfl hf'.2

theorem selectStmt_sound {s : St} :
    lp selectStmt e (Read e (fun ts q => Dml e.cs (calls e) (.kw (.statement .select) :: ts) q) s) s := by
  simp only [selectStmt]
  lps
  refine fun hi => ⟨fun _ => trivial, fun h3 => ?_⟩
  refine lp_mono columns_sound fun cols s1 hcols hi1 => ⟨fun _ => trivial, fun h2 hlt1 => ?_⟩
  refine lp_mono entityBuffered_sound fun m s2 hm _ => ?_
  have key : ∀ (ws : List Token) (w : Clauses) (j : Nat) (f : Bool), s2.f = true →
      At e s2.i ws → j = s2.i + ws.length → MaybeWhere ws w → ∀ x, m = some x →
      Read e (fun ts q => Dml e.cs (calls e) (.kw (.statement .select) :: ts) q) s ⟨x.1, x.2, .select cols w⟩ ⟨j, f⟩ := by
    intro ws w j f hf2 a1 a2 a3 x hx
    obtain ⟨b1, y, b2, ns, b3, b4, b5⟩ := hm hf2
    simp only [Bool.and_eq_true, decide_eq_true_eq] at b1
    obtain ⟨_, fs, c1, c2, c3⟩ := hcols b1.1
    rw [b2] at hx
    cases hx
    simp only at b3 b4
    have b1' := b1.2
    rw [c2] at b1' b3 b4
    refine ⟨fs ++ kw .from :: ns ++ ws, ?_, by simp; omega, .select c3 b5 a3⟩
    rw [At_append, At_append, At_cons]
    refine ⟨⟨c1, b1', b3⟩, ?_⟩
    rw [show s.i + (fs ++ kw .from :: ns).length = s2.i by simp; omega]
    exact a1
  refine ⟨fun hw => ?_, fun hw => ⟨fun hf2 x hx => ?_, fun _ => trivial⟩⟩
  · simp only [decide_eq_true_eq] at hw
    refine lp_mono parseWhere_sound fun c s3 h => ⟨fun hf3 x hx => ?_, fun _ => trivial⟩
    obtain ⟨hf2, ws, a1, a2, a3⟩ := h hf3
    exact key (kw .where :: ws) c s3.i s3.f hf2 (At_cons.2 ⟨hw, a1⟩) (by simp at a2 ⊢; omega) (.yes a3) x hx
  · exact key [] [] s2.i s2.f hf2 At_nil rfl .no x hx

theorem selectAllStmt_sound {s : St} :
    lp selectAllStmt e (Read e (fun ts q => Dml e.cs (calls e) (.kw (.statement .select) :: kw .all :: ts) q) s) s := by
  simp only [selectAllStmt]
  lps
  refine fun hi => ⟨fun _ => trivial, fun h3 => ?_⟩
  refine lp_mono columns_sound fun cols s1 hcols hi1 => ⟨fun _ => trivial, fun h2 hlt1 => ?_⟩
  refine lp_mono entityBuffered_sound fun m s2 hm _ hi2 => ⟨fun hok t ht l hl => ?_, fun _ => trivial⟩
  simp only [Bool.and_eq_true, decide_eq_true_eq] at hok
  obtain ⟨⟨hf2, hlim⟩, _⟩ := hok
  simp only [hf2, hlim, decide_true, Bool.and_self, Bool.toNat_true] at ht ⊢
  split
  · lps
    intro x hx
    subst hl
    obtain ⟨b1, y, b2, ns, b3, b4, b5⟩ := hm hf2
    simp only [Bool.and_eq_true, decide_eq_true_eq] at b1
    obtain ⟨_, fs, c1, c2, c3⟩ := hcols b1.1
    rw [b2] at hx
    cases hx
    simp only at b3 b4
    have b1' := b1.2
    rw [c2] at b1' b3 b4
    refine ⟨fs ++ kw .from :: ns ++ [kw .limit, .lit (.uint _)], ?_, by simp; omega, .selectAll c3 b5⟩
    rw [At_append, At_append, At_cons]
    refine ⟨⟨c1, b1', b3⟩, ?_⟩
    rw [show s.i + (fs ++ kw .from :: ns).length = s2.i by simp; omega]
    exact At_cons.2 ⟨hlim, At_cons.2 ⟨ht, At_nil⟩⟩
  · trivial

/-! ### UPDATE and DELETE -/

/-- The operator of an assignment. -/
theorem assign_of_code {t : Token} {b : Bytes} {l : Lit} {op : AOp}
    (hop : operator[(t == tEq).toNat + (t == Token.sym .opArithmeticAdd).toNat * 2
      + (t == Token.sym .opArithmeticSub).toNat * 3 + (t == Token.sym .opArithmeticMul).toNat * 4
      + (t == Token.sym .opArithmeticDiv).toNat * 5]? = some op)
    (h0 : (t == tEq).toNat + (t == Token.sym .opArithmeticAdd).toNat * 2
      + (t == Token.sym .opArithmeticSub).toNat * 3 + (t == Token.sym .opArithmeticMul).toNat * 4
      + (t == Token.sym .opArithmeticDiv).toNat * 5 ≠ 0) :
    Assign (if t = tEq then [.ident b, t, .lit l] else [.ident b, t, tEq, .lit l]) ⟨nm b, op, l⟩ := by
  cases t with
  | sym x =>
    cases x <;> first
      | (exact absurd rfl h0)
      | (cases hop
         first
           | exact .assign b l
           | exact .add b l
           | exact .sub b l
           | exact .mul b l
           | exact .div b l)
  | _ => exact absurd rfl h0

/-- The code is one for `=` only. -/
theorem code_one {t : Token} : ((t == tEq).toNat + (t == Token.sym .opArithmeticAdd).toNat * 2
      + (t == Token.sym .opArithmeticSub).toNat * 3 + (t == Token.sym .opArithmeticMul).toNat * 4
      + (t == Token.sym .opArithmeticDiv).toNat * 5 = 1) ↔ t = tEq := by
  constructor
  · intro h
    by_cases ht : t = tEq
    · exact ht
    · exfalso
      have : (t == tEq) = false := by simpa using ht
      rw [this] at h
      simp only [Bool.toNat_false, Nat.zero_add] at h
      omega
  · rintro rfl; rfl

theorem assignment_sound {as : List Asn} {s : St} :
    lp (assignment as) e (fun r s' => s'.f = true → s.f = true ∧ ∃ a, r = as ++ [a] ∧ Read e Assign s a s') s := by
  simp only [assignment]
  lps
  refine fun hi => ⟨fun _ h => by simp at h, fun h3 lhs hlhs t ht => ⟨fun _ => trivial, fun _ h0 _ => ⟨fun hok => ?_, fun hok hf => absurd hf hok⟩⟩⟩
  intro t' ht' l hl b hb
  subst hl hb
  split
  · rename_i op hop
    lps
    intro _
    simp only [Bool.and_eq_true] at hok
    obtain ⟨⟨⟨⟨hf, _⟩, hc0⟩, hsd⟩, _⟩ := hok
    have hA := assign_of_code (b := b) (l := l) hop (by simpa using hc0)
    refine ⟨hf, _, rfl, ?_⟩
    by_cases h1 : t = tEq
    · have h2 := code_one.2 h1
      simp only [h1, if_true] at hA
      rw [h1] at ht
      generalize (t == tEq).toNat + (t == Token.sym .opArithmeticAdd).toNat * 2
        + (t == Token.sym .opArithmeticSub).toNat * 3 + (t == Token.sym .opArithmeticMul).toNat * 4
        + (t == Token.sym .opArithmeticDiv).toNat * 5 = code at *
      subst h2
      exact ⟨_, At_cons.2 ⟨hlhs, At_cons.2 ⟨ht, At_cons.2 ⟨by simpa using ht', At_nil⟩⟩⟩, by simp, hA⟩
    · have h2 := mt code_one.1 h1
      simp only [h1, if_false] at hA
      generalize (t == tEq).toNat + (t == Token.sym .opArithmeticAdd).toNat * 2
        + (t == Token.sym .opArithmeticSub).toNat * 3 + (t == Token.sym .opArithmeticMul).toNat * 4
        + (t == Token.sym .opArithmeticDiv).toNat * 5 = code at *
      have h3 : (code == 1) = false := by simpa using h2
      have h4 : (code != 1) = true := by simpa using h2
      simp only [h3, h4, Bool.false_and, Bool.false_or, Bool.true_and, decide_eq_true_eq] at hsd
      simp only [h4, hsd, decide_true, Bool.and_self, Bool.toNat_true] at ht' ⊢
      exact ⟨_, At_cons.2 ⟨hlhs, At_cons.2 ⟨ht, At_cons.2 ⟨hsd, At_cons.2 ⟨ht', At_nil⟩⟩⟩⟩, by simp, hA⟩
  · trivial

theorem assignLoop_off {n : Nat} {w : Bool} {as : List Asn} {s : St} (hf : s.f = false) :
    lp (assignLoop n w as) e (fun _ s' => s'.f = false) s := by
  cases n with
  | zero => trivial
  | succ n =>
    simp only [assignLoop, lp_bind, lp_loopTt, lp_ite, hf, Bool.and_false]
    exact fun _ => ⟨fun h => by simp at h, fun _ => hf⟩

/-- The rest of the assignments. -/
def AssignTail (w : Bool) (ts : List Token) (as : List Asn) : Prop :=
  if w then ts = [] ∧ as = [] else Assigns ts as

theorem assignLoop_sound : ∀ (n : Nat) (w : Bool) (as : List Asn) (s : St), (w = true → e.toks[s.i]? = some (kw .where)) →
    lp (assignLoop n w as) e (fun r s' => s'.f = true → r.1 = true → s.f = true ∧ e.toks[s'.i]? = some (kw .where) ∧
      ∃ as', r.2 = as ++ as' ∧ Read e (AssignTail w) s as' s') s
  | 0, _, _, _, _ => trivial
  | n + 1, w, as, s, hw => by
    simp only [assignLoop]
    lps
    refine fun hi => ⟨fun hgo => ?_, fun hgo hf h => ⟨hf, hw h, [], by simp, [], At_nil, rfl, ?_⟩⟩
    · simp only [Bool.and_eq_true, decide_eq_true_eq, Bool.not_eq_true'] at hgo
      obtain ⟨⟨hlt, hf⟩, rfl⟩ := hgo
      refine lp_mono assignment_sound fun r s1 h1 _ _ => ?_
      by_cases hok : (s1.f && (decide (e.toks[s1.i]? = some tComma) || decide (e.toks[s1.i]? = some (kw .where)))) = true
      · simp only [Bool.and_eq_true, Bool.or_eq_true, decide_eq_true_eq] at hok
        obtain ⟨hf1, hnx⟩ := hok
        obtain ⟨_, a, rfl, ts, a1, a2, a3⟩ := h1 hf1
        refine lp_mono (assignLoop_sound n _ _ _ ?_) fun r s' h hf' hr => ?_
        · intro hd
          simp only [decide_eq_true_eq] at hd
          simp [hd]
        obtain ⟨_, b1, as', b2, us, b3, b4, b5⟩ := h hf' hr
        refine ⟨hf, b1, a :: as', by rw [b2]; simp, ?_⟩
        by_cases hc : e.toks[s1.i]? = some (kw .where)
        · simp only [AssignTail, hc, decide_true, if_true] at b5
          obtain ⟨rfl, rfl⟩ := b5
          simp [hc] at b4
          exact ⟨ts, a1, by omega, .last a3⟩
        · have hc' := hnx.resolve_right hc
          simp only [AssignTail, hc, decide_false] at b5
          simp only [hc', decide_true, Bool.toNat_true] at b3 b4
          rw [a2] at hc' b3
          exact ⟨ts ++ tComma :: us, At_append.2 ⟨a1, At_cons.2 ⟨hc', b3⟩⟩, by simp; omega, .more a3 b5⟩
      · rw [Bool.eq_false_iff.2 hok]
        refine lp_mono (assignLoop_off rfl) fun _ s' h hf' => ?_
        simp [h] at hf'
    · rw [h]
      exact ⟨rfl, rfl⟩

theorem updateStmt_sound {s : St} :
    lp updateStmt e (Read e (fun ts q => Dml e.cs (calls e) (.kw (.statement .update) :: ts) q) s) s := by
  simp only [updateStmt]
  lps
  refine fun hi => ⟨fun _ => trivial, fun h3 => ?_⟩
  refine lp_mono entityBuffered_sound fun m s1 hm hi1 => ⟨fun _ => trivial, fun _ hlt1 => ?_⟩
  refine lp_mono (assignLoop_sound _ _ _ _ (by simp)) ?_
  rintro ⟨w, as⟩ s2 h2
  lps
  refine lp_mono parseWhere_sound fun c s3 h => ⟨fun hf3 x hx => ?_, fun _ => trivial⟩
  obtain ⟨hf2, ws, a1, a2, a3⟩ := h hf3
  simp only [Bool.and_eq_true] at hf2
  obtain ⟨hf2, rfl⟩ := hf2
  obtain ⟨b0, b1, as', b2, us, b3, b4, b5⟩ := h2 hf2 rfl
  simp only [Bool.and_eq_true, decide_eq_true_eq] at b0
  obtain ⟨_, y, c2, ns, c3, c4, c5⟩ := hm b0.1
  rw [c2] at hx
  cases hx
  simp only [List.nil_append] at b2
  subst b2
  simp only [hf2, Bool.and_self, Bool.toNat_true] at a1 a2
  simp only [AssignTail] at b5
  have c6 := b0.2
  refine ⟨ns ++ kw .set :: us ++ kw .where :: ws, ?_, by simp at b4 ⊢; omega, .update c5 b5 a3⟩
  rw [At_append, At_append, At_cons, At_cons]
  rw [show s.i + (ns ++ kw .set :: us).length = s2.i by simp at b4 ⊢; omega, ← c4]
  exact ⟨⟨c3, c6, b3⟩, b1, a1⟩

theorem deleteStmt_sound {s : St} :
    lp deleteStmt e (Read e (fun ts q => Dml e.cs (calls e) (.kw (.statement .delete) :: ts) q) s) s := by
  simp only [deleteStmt]
  lps
  refine fun hi => ⟨fun _ => trivial, fun h3 hlt => ?_⟩
  refine lp_mono entityBuffered_sound fun m s1 hm hlt1 => ?_
  refine lp_mono parseWhere_sound fun c s3 h => ⟨fun hf3 x hx => ?_, fun _ => trivial⟩
  obtain ⟨hf2, ws, a1, a2, a3⟩ := h hf3
  simp only [Bool.and_eq_true, decide_eq_true_eq] at hf2
  obtain ⟨b0, y, c2, ns, c3, c4, c5⟩ := hm hf2.1
  simp only [Bool.and_eq_true, decide_eq_true_eq] at b0
  rw [c2] at hx
  cases hx
  simp only at c3 c4 a1 a2
  have b1 := hf2.2
  rw [c4] at a1 b1
  exact ⟨kw .from :: (ns ++ kw .where :: ws), At_cons.2 ⟨b0.2, At_append.2 ⟨c3, At_cons.2 ⟨b1, a1⟩⟩⟩, by simp; omega, .delete c5 a3⟩

/-! ### Dispatch -/

theorem hardened_lp {p : P α} {Q : α → St → Prop} {s : St} (h : lp p e (fun a s' => s'.i = e.toks.length → Q a s') s) :
    lp (hardened p) e Q s := by
  simp only [hardened, lp_bind]
  refine lp_mono h fun a s' h => ?_
  lps
  refine fun hi => ⟨fun _ => trivial, fun hn => h ?_⟩
  simp only [decide_eq_true_eq] at hn
  omega

theorem lp_withoutSpace {p : P α} {Q : α → St → Prop} {s : St} :
    lp (withoutSpace p) e Q s = lp p { e with cs := none } Q s := rfl

/-- A part that ends with the query. -/
theorem Read.all {G : List Token → α → Prop} {s s' : St} {a : α} {t : Token} (h : Read e G s a s') (hs : s.i = 1)
    (ht : e.toks[0]? = some t) (hl : s'.i = e.toks.length) : ∃ ts, e.toks = t :: ts ∧ G ts a := by
  obtain ⟨ts, h1, h2, h3⟩ := h
  refine ⟨ts, At_all (At_cons.2 ⟨ht, by rw [hs] at h1; exact h1⟩) (by simp; omega), h3⟩

/-- The same for two tokens in front. -/
theorem Read.all2 {G : List Token → α → Prop} {s s' : St} {a : α} {t t' : Token} (h : Read e G s a s') (hs : s.i = 2)
    (ht : e.toks[0]? = some t) (ht' : e.toks[1]? = some t') (hl : s'.i = e.toks.length) :
    ∃ ts, e.toks = t :: t' :: ts ∧ G ts a := by
  obtain ⟨ts, h1, h2, h3⟩ := h
  refine ⟨ts, At_all (At_cons.2 ⟨ht, At_cons.2 ⟨ht', by rw [hs] at h1; exact h1⟩⟩) (by simp; omega), h3⟩

end Verif.Ql
