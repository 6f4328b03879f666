import Verif.Ql.Runs
import Verif.Ql.Grammar
/-!
What the parsers of dictionaries and types accept is in the grammar.
-/
namespace Verif.Ql
open Verif.Lex (Token Symbol Keyword KwStmt KwMisc Lit)
open Verif.Enc (DVal Dict)
open Verif.Gns (put)
open Verif.Dml (cellOfLit)
open Gr

variable {e : Env}

/-! ### Keys -/

theorem get_none_iff {d : Dict} {k : String} : (Gns.get d k).isNone = true ↔ k ∉ d.map Prod.fst := by
  induction d with
  | nil => simp [Gns.get]
  | cons x d ih =>
    obtain ⟨a, v⟩ := x
    by_cases h : a = k
    · simp [Gns.get, h]
    · simp only [Gns.get, h, if_false, ih, List.map_cons, List.mem_cons, not_or]
      exact ⟨fun h' => ⟨fun h'' => h h''.symm, h'⟩, fun h' => h'.2⟩

theorem put_new {d : Dict} {k : String} {v : DVal} (h : k ∉ d.map Prod.fst) : put d k v = d ++ [(k, v)] := by
  induction d with
  | nil => rfl
  | cons x d ih =>
    obtain ⟨a, w⟩ := x
    simp only [List.map_cons, List.mem_cons, not_or] at h
    rw [put, if_neg (fun h' => h.1 h'.symm), ih h.2]
    rfl

theorem distinct_snoc {α : Type} {d : List (String × α)} {k : String} {v : α} (h : Distinct d)
    (hk : k ∉ d.map Prod.fst) : Distinct (d ++ [(k, v)]) := by
  unfold Distinct at *
  rw [List.map_append, List.nodup_append]
  refine ⟨h, by simp, ?_⟩
  intro a ha b hb
  simp at hb
  subst hb
  exact fun h' => hk (h' ▸ ha)

theorem distinct_left {α : Type} {d d' : List (String × α)} (h : Distinct (d ++ d')) : Distinct d := by
  unfold Distinct at *
  rw [List.map_append, List.nodup_append] at h
  exact h.1

theorem distinct_fresh {α : Type} {d d' : List (String × α)} {k : String} {v : α} (h : Distinct (d ++ (k, v) :: d')) :
    k ∉ d.map Prod.fst := by
  unfold Distinct at *
  rw [List.map_append, List.nodup_append] at h
  intro hk
  exact h.2.2 k hk k (by simp) rfl

/-! ### Dictionaries -/

theorem body_prepend {vs us : List Token} {v : DVal} {b : Bytes} {d : Dict} (hv : Value vs v) (h : Body us d) :
    Body (.ident b :: tColon :: (vs ++ tComma :: us)) ((nm b, v) :: d) := by
  cases h with
  | comma hi =>
    have := Body.comma (Items.cons (b := b) hv hi)
    simpa using this
  | @last _ _ _ c _ hi hw =>
    have := Body.last (b := c) (Items.cons (b := b) hv hi) hw
    simpa using this

/-- The rest of a dictionary after `{` or a comma; it ends with `}`, or with `type` if that is looked for. -/
def TB (bp b : Bool) (ts : List Token) (d : Dict) : Prop :=
  (b = false ∧ Body ts d) ∨ (b = true ∧ bp = true ∧ ∃ us, ts = us ++ [kw .type] ∧ Items us d)

/-- The rest of a dictionary after a value. -/
def After (bp b : Bool) (ts : List Token) (d : Dict) : Prop :=
  (b = false ∧ ts = [tCB] ∧ d = []) ∨ ∃ us, ts = tComma :: us ∧ TB bp b us d

/-- The rest of a dictionary in each state. -/
def Tail (bp b : Bool) : DFold → Option String → List Token → Dict → Prop
  | .ob, _, ts, d => ∃ us, ts = tOB :: us ∧ TB bp b us d
  | .cbOrIdent, _, ts, d => TB bp b ts d
  | .colon, key, ts, d => ∃ k vs v us d', key = some k ∧ ts = tColon :: (vs ++ us) ∧ Value vs v ∧ After bp b us d' ∧
      d = (k, v) :: d'
  | .litOrOb, key, ts, d => ∃ k vs v us d', key = some k ∧ ts = vs ++ us ∧ Value vs v ∧ After bp b us d' ∧
      d = (k, v) :: d'
  | .commaOrCb, _, ts, d => After bp b ts d
  | .final, _, _, _ => False

theorem TB.cons {bp b : Bool} {vs us : List Token} {x : Bytes} {v : DVal} {d : Dict} (hv : Value vs v)
    (h : After bp b us d) : TB bp b (.ident x :: tColon :: (vs ++ us)) ((nm x, v) :: d) := by
  rcases h with ⟨rfl, rfl, rfl⟩ | ⟨us, rfl, ⟨rfl, hb⟩ | ⟨rfl, hbp, ws, rfl, hi⟩⟩
  · exact .inl ⟨rfl, by simpa using Body.last (b := x) Items.nil hv⟩
  · exact .inl ⟨rfl, body_prepend hv hb⟩
  · exact .inr ⟨rfl, hbp, _, by simp, Items.cons (b := x) hv hi⟩

/-- What an accepting run of `rfold` has read. -/
def RfoldOk (e : Env) (bp : Bool) (m : DFold) (key : Option String) (d : Dict) (s : St) (r : Bool × Dict) (s' : St) : Prop :=
  s'.f = true → s.f = true ∧ ∃ ts es, At e s.i ts ∧ s'.i = s.i + ts.length ∧ r.2 = d ++ es ∧ Distinct (d ++ es) ∧
    Tail bp r.1 m key ts es

theorem rfold_sound : ∀ (n : Nat) (bp : Bool) (m : DFold) (key : Option String) (d : Dict) (s : St), Distinct d → m ≠ .final →
    lp (rfold n bp m key d) e (RfoldOk e bp m key d s) s
  | 0, _, _, _, _, _, _, _ => trivial
  | n + 1, bp, m, key, d, s, hd, hm => by
    simp only [rfold, lp_bind, lp_loopTt, lp_ite]
    intro hi
    refine ⟨fun hgo => ?_, fun hgo => ?_⟩
    · simp only [Bool.and_eq_true, decide_eq_true_eq] at hgo
      obtain ⟨hlt, hf⟩ := hgo
      simp only [lp_fwRead]
      intro t ht
      -- one more token in front
      have step : ∀ m' key' d', Distinct d' → m' ≠ .final → (∀ b ts es, Tail bp b m' key' ts es → Distinct (d' ++ es) →
          ∃ es', d' ++ es = d ++ es' ∧ Tail bp b m key (t :: ts) es') →
          lp (rfold n bp m' key' d') e (RfoldOk e bp m key d s) ⟨s.i + 1, s.f⟩ := by
        intro m' key' d' hd' hm' hT
        refine lp_mono (rfold_sound n bp m' key' d' ⟨s.i + 1, s.f⟩ hd' hm') ?_
        rintro ⟨b, r⟩ s' h hf'
        obtain ⟨_, ts, es, h1, h2, h3, h4, h5⟩ := h hf'
        obtain ⟨es', h6, h7⟩ := hT b ts es h5 h4
        simp only at h1 h2 h3
        refine ⟨hf, t :: ts, es', At_cons.2 ⟨ht, h1⟩, by simp; omega, by rw [h3, h6], h6 ▸ h4, h7⟩
      have ins : ∀ (k : String) (vs : List Token) (v : DVal) (j : Nat), m = .litOrOb → key = some k → Value vs v →
          At e s.i vs → j = s.i + vs.length →
          ∀ f, lp (insertNew d k v) e (fun d' s' => lp (rfold n bp .commaOrCb none d') e (RfoldOk e bp m key d s) s') ⟨j, f⟩ := by
        intro k vs v j hm' hk hv hat hj f
        simp only [insertNew, lp_bind, lp_poisonIfNot, lp_pure]
        by_cases hn : (Gns.get d k).isNone = true
        · have hk' := get_none_iff.1 hn
          rw [put_new hk']
          refine lp_mono (rfold_sound n bp .commaOrCb none _ _ (distinct_snoc hd hk') (by simp)) ?_
          rintro ⟨b, r⟩ s' h hf'
          obtain ⟨_, ts, es, h1, h2, h3, h4, h5⟩ := h hf'
          simp only at h1 h2 h3
          subst hj hm'
          refine ⟨hf, vs ++ ts, (k, v) :: es, At_append.2 ⟨hat, h1⟩, by simp; omega, by simpa using h3, by simpa using h4,
            k, vs, v, ts, es, hk, rfl, hv, h5, rfl⟩
        · have hn : (Gns.get d k).isNone = false := Bool.eq_false_iff.2 hn
          rw [hn]
          simp only [Bool.and_false]
          -- poisoned: the rest of the run does not raise the flag
          have : lp (rfold n bp .commaOrCb none (put d k v)) e (fun _ s' => s'.f = false) ⟨j, false⟩ := by
            cases n with
            | zero => trivial
            | succ n =>
              simp only [rfold, lp_bind, lp_loopTt, lp_ite, Bool.and_false]
              intro _
              refine ⟨fun h => by simp at h, fun _ => ?_⟩
              simp only [lp_poisonIfNot, lp_pure, Bool.false_and]
          refine lp_mono this fun a s' h => ?_
          intro hf'
          rw [h] at hf'
          simp at hf'
      split
      · exact step _ _ _ hd (by simp) fun b ts es h _ => ⟨es, rfl, ts, rfl, h⟩
      · intro _
        exact ⟨hf, [tCB], [], At_cons.2 ⟨ht, At_nil⟩, rfl, by simp, by simpa using hd, .inl ⟨rfl, by simpa using Body.comma Items.nil⟩⟩
      · intro _
        exact ⟨hf, [tCB], [], At_cons.2 ⟨ht, At_nil⟩, rfl, by simp, by simpa using hd, .inl ⟨rfl, rfl, rfl⟩⟩
      · rename_i b
        refine step _ _ _ hd (by simp) ?_
        rintro b' ts es ⟨k, vs, v, us, d', hk, rfl, hv, ha, rfl⟩ _
        cases hk
        exact ⟨_, rfl, TB.cons hv ha⟩
      · refine step _ _ _ hd (by simp) ?_
        rintro b' ts es ⟨k, vs, v, us, d', hk, rfl, hv, ha, rfl⟩ _
        exact ⟨_, rfl, k, vs, v, us, d', hk, rfl, hv, ha, rfl⟩
      · rename_i l
        simp only [lp_bind, lp_assumeInit]
        intro k hk
        exact ins k [.lit l] _ _ rfl hk (.lit l) (At_cons.2 ⟨ht, At_nil⟩) rfl _
      · simp only [lp_bind, lp_assumeInit]
        intro k hk
        exact ins k [kw .null] _ _ rfl hk .null (At_cons.2 ⟨ht, At_nil⟩) rfl _
      · simp only [lp_bind, lp_assumeInit]
        refine lp_mono (rfold_sound n false .cbOrIdent none [] _ (by simp [Distinct]) (by simp)) ?_
        rintro ⟨b, nd⟩ s1 h1 k hk
        by_cases hf1 : s1.f = true
        · obtain ⟨_, ts, es, h1, h2, h3, h4, h5⟩ := h1 hf1
          rcases h5 with ⟨_, h5⟩ | ⟨_, h5, _⟩
          · simp only [List.nil_append] at h3 h4
            subst h3
            exact ins k (tOB :: ts) _ s1.i rfl hk (.map h5 h4) (At_cons.2 ⟨ht, h1⟩) (by simp at h2 ⊢; omega) _
          · simp at h5
        · -- poisoned inside
          have hf1 : s1.f = false := by simpa using hf1
          simp only [insertNew, lp_bind, lp_poisonIfNot, lp_pure, hf1, Bool.false_and]
          have : ∀ d', lp (rfold n bp .commaOrCb none d') e (fun _ s' => s'.f = false) ⟨s1.i, false⟩ := by
            intro d'
            cases n with
            | zero => trivial
            | succ n =>
              simp only [rfold, lp_bind, lp_loopTt, lp_ite, Bool.and_false]
              intro _
              refine ⟨fun h => by simp at h, fun _ => ?_⟩
              simp only [lp_poisonIfNot, lp_pure, Bool.false_and]
          refine lp_mono (this _) fun a s' h => ?_
          intro hf'
          rw [h] at hf'
          simp at hf'
      · exact step _ _ _ hd (by simp) fun b ts es h _ => ⟨es, rfl, .inr ⟨ts, rfl, h⟩⟩
      · split
        · rename_i hc
          simp only [Bool.and_eq_true, beq_iff_eq] at hc
          obtain ⟨⟨hb, hm'⟩, ht'⟩ := hc
          subst ht' hm'
          intro _
          exact ⟨hf, [kw .type], [], At_cons.2 ⟨ht, At_nil⟩, rfl, by simp, by simpa using hd,
            .inr ⟨rfl, hb, [], rfl, .nil⟩⟩
        · simp only [lp_bind, lp_backBy, lp_poison, lp_pure]
          intro _ h
          simp at h
    · simp only [lp_poisonIfNot, lp_pure]
      intro h
      simp only [Bool.and_eq_true, beq_iff_eq] at h
      exact absurd h.2 hm

theorem rfold_off {n : Nat} {bp : Bool} {m : DFold} {key : Option String} {d : Dict} {s : St} (hf : s.f = false) :
    lp (rfold n bp m key d) e (fun _ s' => s'.f = false) s := by
  cases n with
  | zero => trivial
  | succ n =>
    simp only [rfold, lp_bind, lp_loopTt, lp_ite, hf, Bool.and_false]
    intro _
    refine ⟨fun h => by simp at h, fun _ => ?_⟩
    simp only [lp_poisonIfNot, lp_pure, hf, Bool.false_and]

theorem rfoldDict_sound {m : DFold} {s : St} (hm : m ≠ .final) :
    lp (rfoldDict m) e (fun d s' => RfoldOk e false m none [] s (false, d) s') s := by
  simp only [rfoldDict]
  lps
  refine lp_mono (rfold_sound _ _ _ _ _ _ (by simp [Distinct]) hm) ?_
  rintro ⟨b, d⟩ s' h hf
  obtain ⟨h1, ts, es, h2, h3, h4, h5, h6⟩ := h hf
  refine ⟨h1, ts, es, h2, h3, h4, h5, ?_⟩
  cases b
  · exact h6
  · cases m <;> simp [Tail, After, TB] at h6 ⊢

/-- A dictionary in braces. -/
theorem rfoldDict_ob {s : St} :
    lp (rfoldDict .ob) e (fun d s' => s'.f = true → s.f = true ∧ ∃ ts, At e s.i ts ∧ s'.i = s.i + ts.length ∧ Map ts d) s := by
  refine lp_mono (rfoldDict_sound (by simp)) ?_
  intro d s' h hf
  obtain ⟨h1, ts, es, h2, h3, h4, h5, us, rfl, h6⟩ := h hf
  simp only [List.nil_append] at h4 h5
  subst h4
  rcases h6 with ⟨_, h6⟩ | ⟨h6, _⟩
  · exact ⟨h1, _, h2, h3, .mk h6 h5⟩
  · simp at h6

/-! ### Types -/

theorem lp_pushLayer {m : LFold} {ty : Option Bytes} {props : Dict} {ls : List LayerSpec} {s : St}
    {Q : List LayerSpec → St → Prop}
    (h1 : ∀ b, (m = .final ∨ m = .finalOrOb) → s.f = true → ty = some b → Q (ls ++ [⟨b, props.isEmpty⟩]) s)
    (h2 : Q ls ⟨s.i, false⟩) :
    lp (pushLayer m ty props ls) e Q s := by
  simp only [pushLayer]
  lps
  refine ⟨fun h b hb => ?_, fun _ => h2⟩
  simp only [Bool.and_eq_true, Bool.or_eq_true, beq_iff_eq] at h
  exact h1 b h.1 h.2 hb

/-- The rest of a type in each state. -/
def LTail (m : LFold) (ty : Option Bytes) (props : Dict) (ts : List Token) (ls : List LayerSpec) : Prop :=
  match m with
  | .beginIdent => Ty ts ls
  | .finalOrOb => ∃ b, ty = some b ∧ Ty (.ident b :: ts) ls
  | .foldIncomplete => ∃ b, ty = some b ∧ ((ts = [tCB] ∧ ls = [⟨b, props.isEmpty⟩]) ∨
      ∃ vs d, ts = tComma :: vs ∧ Body vs d ∧ Distinct (props ++ d) ∧ ls = [⟨b, (props ++ d).isEmpty⟩])
  | .final => False

/-- What an accepting run of `layers` has read. -/
def LayersOk (e : Env) (m : LFold) (ty : Option Bytes) (props : Dict) (ls : List LayerSpec) (s : St)
    (r : List LayerSpec) (s' : St) : Prop :=
  s'.f = true → s.f = true ∧ ∃ ts ls', At e s.i ts ∧ s'.i = s.i + ts.length ∧ r = ls ++ ls' ∧ LTail m ty props ts ls'

theorem layers_off {n : Nat} {m : LFold} {ty : Option Bytes} {props : Dict} {ls : List LayerSpec} {s : St}
    (hf : s.f = false) : lp (layers n m ty props ls) e (fun _ s' => s'.f = false) s := by
  cases n with
  | zero => trivial
  | succ n =>
    simp only [layers, lp_bind, lp_loopTt, lp_ite, hf, Bool.and_false]
    intro _
    refine ⟨fun h => by simp at h, fun _ => lp_pushLayer (fun _ _ h _ => by simp [hf] at h) rfl⟩

theorem layers_sound : ∀ (n : Nat) (m : LFold) (ty : Option Bytes) (props : Dict) (ls : List LayerSpec) (s : St),
    Distinct props → (m ≠ .foldIncomplete → props = []) → m ≠ .final →
    lp (layers n m ty props ls) e (LayersOk e m ty props ls s) s
  | 0, _, _, _, _, _, _, _, _ => trivial
  | n + 1, m, ty, props, ls, s, hd, hp, hm => by
    simp only [layers, lp_bind, lp_loopTt, lp_ite]
    intro hi
    refine ⟨fun hgo => ?_, fun hgo => ?_⟩
    · simp only [Bool.and_eq_true, decide_eq_true_eq] at hgo
      obtain ⟨hlt, hf⟩ := hgo
      simp only [lp_fwRead]
      intro t ht
      split
      · rename_i b
        refine lp_mono (layers_sound n .finalOrOb (some b) props ls ⟨s.i + 1, s.f⟩ hd (by simpa using hp) (by simp)) ?_
        intro r s' h hf'
        obtain ⟨_, ts, ls', h1, h2, h3, b', hb, h4⟩ := h hf'
        cases hb
        exact ⟨hf, _, ls', At_cons.2 ⟨ht, h1⟩, by simp at h2 ⊢; omega, h3, h4⟩
      · have hp := hp (by simp)
        subst hp
        simp only [lp_bind]
        refine lp_mono (rfold_sound n true .cbOrIdent none [] ⟨s.i + 1, s.f⟩ hd (by simp)) ?_
        rintro ⟨more, pr⟩ s1 h1
        lps
        refine ⟨fun hmore _ => ?_, fun hmore => ?_⟩
        · subst hmore
          refine lp_mono (layers_sound n .beginIdent none [] ls _ (by simp [Distinct]) (by simp) (by simp)) ?_
          intro ls3 s3 h3
          by_cases hf1 : s1.f = true
          · obtain ⟨_, ts, es, a1, a2, a3, a4, a5⟩ := h1 hf1
            rcases a5 with ⟨a5, _⟩ | ⟨_, _, us, rfl, a5⟩
            · simp at a5
            simp only [List.nil_append] at a3 a4
            subst a3
            refine lp_mono (layers_sound n .foldIncomplete ty _ ls3 s3 a4 (by simp) (by simp)) ?_
            intro r s4 h4 hf4
            obtain ⟨hf3, us4, ls4, b1, b2, b3, b, hb, b4⟩ := h4 hf4
            obtain ⟨hf2, us3, ls3', c1, c2, c3, c4⟩ := h3 hf3
            simp only [Bool.and_eq_true, decide_eq_true_eq, hf1, true_and] at hf2
            simp only [hf1, hf2, decide_true, Bool.and_self, Bool.toNat_true] at c1 c2
            simp only [List.length_append, List.length_cons, List.length_nil] at a2
            have hat : At e s.i (tOB :: (us ++ kw .type :: tColon :: (us3 ++ us4))) := by
              refine At_cons.2 ⟨ht, ?_⟩
              rw [At_append] at a1 ⊢
              refine ⟨a1.1, At_cons.2 ⟨(At_cons.1 a1.2).1, At_cons.2 ⟨?_, At_append.2 ⟨?_, ?_⟩⟩⟩⟩
              · rw [show s.i + 1 + us.length + 1 = s1.i by omega]; exact hf2
              · rw [show s.i + 1 + us.length + 1 + 1 = s1.i + 1 by omega]; exact c1
              · rw [show s.i + 1 + us.length + 1 + 1 + us3.length = s3.i by omega]; exact b1
            refine ⟨hf, _, ls3' ++ ls4, hat, by simp; omega, by rw [b3, c3, List.append_assoc], b, hb, ?_⟩
            rcases b4 with ⟨rfl, rfl⟩ | ⟨vs, d, rfl, d1, d2, rfl⟩
            · exact .nested a5 a4 c4
            · exact .nestedMore a5 c4 d1 d2
          · have hf1 : s1.f = false := by simpa using hf1
            have hf3 : s3.f = false := by
              rcases hx : s3.f with _ | _
              · rfl
              · have := (h3 hx).1
                simp [hf1] at this
            refine lp_mono (layers_off hf3) fun r s4 h4 hf4 => ?_
            rw [h4] at hf4
            simp at hf4
        · have hmore : more = false := by simpa using hmore
          subst hmore
          refine lp_pushLayer (fun b _ hf1 hb => ?_) (by simp [LayersOk])
          intro _
          obtain ⟨_, ts, es, a1, a2, a3, a4, a5⟩ := h1 hf1
          rcases a5 with ⟨_, a5⟩ | ⟨a5, _⟩
          · simp only [List.nil_append] at a3 a4
            subst a3
            exact ⟨hf, tOB :: ts, _, At_cons.2 ⟨ht, a1⟩, by simp at a2 ⊢; omega, rfl, b, hb, .props a5 a4⟩
          · simp at a5
      · refine lp_pushLayer (fun b _ _ hb => ?_) (by simp [LayersOk])
        intro _
        exact ⟨hf, [tCB], _, At_cons.2 ⟨ht, At_nil⟩, rfl, rfl, b, hb, .inl ⟨rfl, rfl⟩⟩
      · simp only [lp_bind]
        refine lp_mono (rfold_sound n false .cbOrIdent none props ⟨s.i + 1, s.f⟩ hd (by simp)) ?_
        rintro ⟨more, pr⟩ s1 h1
        refine lp_pushLayer (fun b _ hf1 hb => ?_) (by simp [LayersOk])
        intro _
        obtain ⟨_, ts, es, a1, a2, a3, a4, a5⟩ := h1 hf1
        rcases a5 with ⟨_, a5⟩ | ⟨_, a5, _⟩
        · simp only at a3
          subst a3
          exact ⟨hf, tComma :: ts, _, At_cons.2 ⟨ht, a1⟩, by simp at a2 ⊢; omega, rfl, b, hb,
            .inr ⟨ts, es, rfl, a5, a4, rfl⟩⟩
        · simp at a5
      · have hp := hp (by simp)
        subst hp
        simp only [lp_bind, lp_backBy]
        intro _
        refine lp_pushLayer (fun b _ _ hb => ?_) (by simp [LayersOk])
        intro _
        exact ⟨hf, [], _, At_nil, rfl, rfl, b, hb, .plain b⟩
      · simp only [lp_bind, lp_backBy, lp_poison]
        intro _
        exact lp_pushLayer (fun b _ h _ => by simp at h) (by simp [LayersOk])
    · refine lp_pushLayer (fun b hm' hf hb => ?_) (by simp [LayersOk])
      rcases hm' with rfl | rfl
      · simp at hm
      · have hp := hp (by simp)
        subst hp
        intro _
        exact ⟨hf, [], _, At_nil, rfl, rfl, b, hb, .plain b⟩

theorem rfoldLayers_sound {s : St} :
    lp rfoldLayers e (fun ls s' => s'.f = true → s.f = true ∧ ∃ ts, At e s.i ts ∧ s'.i = s.i + ts.length ∧ Ty ts ls) s := by
  simp only [rfoldLayers]
  lps
  refine lp_mono (layers_sound _ _ _ _ _ _ (by simp [Distinct]) (by simp) (by simp)) ?_
  intro ls s' h hf
  obtain ⟨h1, ts, ls', h2, h3, h4, h5⟩ := h hf
  simp only [List.nil_append] at h4
  exact ⟨h1, ts, h2, h3, h4 ▸ h5⟩

end Verif.Ql
