import Verif.Ql.SoundDict
/-!
Dictionaries and types of the grammar are accepted by the parser.
-/
namespace Verif.Ql
open Verif.Lex (Token Symbol Keyword KwStmt KwMisc Lit)
open Verif.Enc (DVal Dict)
open Verif.Gns (put)
open Verif.Dml (cellOfLit)
open Gr

variable {e : Env}

/-- Compute whether a parser succeeds. -/
macro "rns" : tactic => `(tactic| simp only [runs_pure, runs_bind, runs_fail, runs_crash, runs_okay, runs_poisonIf,
  runs_poisonIfNot, runs_aheadBy, runs_ahead, runs_aheadIf, runs_fuel, runs_hasCs, runs_backBy, runs_uckIdent,
  runs_uckLit, runs_assumeInit, runs_readAt, runs_read, runs_fwRead, runs_remaining, runs_exhausted, runs_notExhausted,
  runs_loopTt, runs_getCs, runs_cursorEq, runs_cursorIsIdent, runs_roundedEq, runs_canReadLit, runs_hasIdentRounded,
  runs_fnSig, runs_offR])

/-- The first tokens of the rest of a dictionary. -/
theorem TB.inv {bp b : Bool} {ts : List Token} {d : Dict} (h : TB bp b ts d) :
    (b = false ∧ ts = [tCB] ∧ d = []) ∨ (b = true ∧ bp = true ∧ ts = [kw .type] ∧ d = []) ∨
    ∃ x vs v us d', ts = .ident x :: tColon :: (vs ++ us) ∧ Value vs v ∧ After bp b us d' ∧ d = (nm x, v) :: d' := by
  rcases h with ⟨rfl, h⟩ | ⟨rfl, hbp, us, rfl, h⟩
  · cases h with
    | comma hi =>
      cases hi with
      | nil => exact .inl ⟨rfl, rfl, rfl⟩
      | @cons x vs ts v d hv hi =>
        exact .inr (.inr ⟨x, vs, v, _, d, by simp, hv, .inr ⟨_, rfl, .inl ⟨rfl, .comma hi⟩⟩, rfl⟩)
    | last hi hw =>
      cases hi with
      | nil => exact .inr (.inr ⟨_, _, _, _, _, by simp, hw, .inl ⟨rfl, rfl, rfl⟩, rfl⟩)
      | @cons x vs ts v d hv hi =>
        exact .inr (.inr ⟨x, vs, v, _, _, by simp, hv, .inr ⟨_, rfl, .inl ⟨rfl, .last hi hw⟩⟩, rfl⟩)
  · cases h with
    | nil => exact .inr (.inl ⟨rfl, hbp, rfl, rfl⟩)
    | @cons x vs ts v d hv hi =>
      exact .inr (.inr ⟨x, vs, v, _, _, by simp, hv, .inr ⟨_, rfl, .inr ⟨rfl, hbp, _, rfl, hi⟩⟩, rfl⟩)

/-- One turn of a loop over the tokens. -/
theorem runs_go {α : Type} {p q : P α} {Q : α → St → Prop} {i : Nat} {t : Token} (ht : e.toks[i]? = some t)
    (h : runs p e Q ⟨i, true⟩) : runs (do if ← loopTt then p else q) e Q ⟨i, true⟩ := by
  have := lt_of_some ht
  rns
  refine ⟨by omega, ?_⟩
  simp only [this, decide_true, Bool.and_self, if_true]
  exact h

theorem runs_fw {α : Type} {k : Token → P α} {Q : α → St → Prop} {i : Nat} {t : Token} (ht : e.toks[i]? = some t)
    (h : runs (k t) e Q ⟨i + 1, true⟩) : runs (do let t ← fwRead; k t) e Q ⟨i, true⟩ := by
  rns
  exact ⟨t, ht, h⟩

theorem rfold_complete : ∀ (n : Nat) (bp b : Bool) (m : DFold) (key : Option String) (d es : Dict) (i : Nat) (ts : List Token),
    Tail bp b m key ts es → Distinct (d ++ es) → At e i ts → e.toks.length < i + n → i ≤ e.toks.length →
    rfold n bp m key d e ⟨i, true⟩ = .ok ((b, d ++ es), ⟨i + ts.length, true⟩)
  | 0, _, _, _, _, _, _, i, _, _, _, _, hn, hi => by omega
  | n + 1, bp, b, m, key, d, es, i, ts, hT, hd, hat, hn, hi => by
    apply eq_of_runs
    rw [rfold]
    -- a step to another state
    have step : ∀ {m' : DFold} {key' : Option String} {d' es' : Dict} {us vs : List Token}, ts = vs ++ us → 0 < vs.length →
        Tail bp b m' key' us es' → d' ++ es' = d ++ es → ∀ j, j = i + vs.length →
        runs (rfold n bp m' key' d') e (fun x y => x = (b, d ++ es) ∧ y = ⟨i + ts.length, true⟩) ⟨j, true⟩ := by
      intro m' key' d' es' us vs h1 h2 h3 h4 j hj
      subst h1 hj
      have hat' := (At_append.1 hat)
      have hle := hat'.1.le hi
      refine runs_eq (rfold_complete n bp b m' key' d' es' _ us h3 (h4 ▸ hd) hat'.2 (by omega) hle) ?_
      rw [h4]
      exact ⟨rfl, by simp; omega⟩
    have ins : ∀ {k : String} {v : DVal} {vs us : List Token} {d' : Dict}, ts = vs ++ us → 0 < vs.length →
        After bp b us d' → es = (k, v) :: d' → ∀ j, j = i + vs.length →
        runs (do let x ← insertNew d k v; rfold n bp .commaOrCb none x) e
          (fun x y => x = (b, d ++ es) ∧ y = ⟨i + ts.length, true⟩) ⟨j, true⟩ := by
      intro k v vs us d' h1 h2 h3 h4 j hj
      subst h4
      have hk := distinct_fresh hd
      simp only [insertNew]
      rns
      rw [put_new hk, get_none_iff.2 hk]
      exact step (m' := .commaOrCb) h1 h2 h3 (by simp) j hj
    cases m with
    | final => exact hT.elim
    | ob =>
      obtain ⟨us, rfl, h⟩ := hT
      refine runs_go (At_cons.1 hat).1 (runs_fw (At_cons.1 hat).1 ?_)
      exact step (vs := [tOB]) (m' := .cbOrIdent) rfl (by simp) h rfl _ rfl
    | cbOrIdent =>
      rcases TB.inv hT with ⟨rfl, rfl, rfl⟩ | ⟨rfl, rfl, rfl, rfl⟩ | ⟨x, vs, v, us, d', rfl, hv, ha, rfl⟩
      · refine runs_go (At_cons.1 hat).1 (runs_fw (At_cons.1 hat).1 ?_)
        exact ⟨by simp, rfl⟩
      · refine runs_go (At_cons.1 hat).1 (runs_fw (At_cons.1 hat).1 ?_)
        exact ⟨by simp, rfl⟩
      · refine runs_go (At_cons.1 hat).1 (runs_fw (At_cons.1 hat).1 ?_)
        refine step (vs := [.ident x]) (m' := .colon) rfl (by simp) ⟨nm x, vs, v, us, d', rfl, rfl, hv, ha, rfl⟩ rfl _ rfl
    | colon =>
      obtain ⟨k, vs, v, us, d', hk, rfl, hv, ha, rfl⟩ := hT
      refine runs_go (At_cons.1 hat).1 (runs_fw (At_cons.1 hat).1 ?_)
      exact step (vs := [tColon]) (m' := .litOrOb) rfl (by simp) ⟨k, vs, v, us, d', hk, rfl, hv, ha, rfl⟩ rfl _ rfl
    | litOrOb =>
      obtain ⟨k, vs, v, us, d', hk, rfl, hv, ha, rfl⟩ := hT
      subst hk
      cases hv with
      | lit l =>
        refine runs_go (At_cons.1 hat).1 (runs_fw (At_cons.1 hat).1 ?_)
        simp only [runs_bind, runs_assumeInit]
        refine ⟨k, rfl, ?_⟩
        rw [← runs_bind]
        exact ins (vs := [.lit l]) rfl (by simp) ha rfl _ rfl
      | null =>
        refine runs_go (At_cons.1 hat).1 (runs_fw (At_cons.1 hat).1 ?_)
        simp only [runs_bind, runs_assumeInit]
        refine ⟨k, rfl, ?_⟩
        rw [← runs_bind]
        exact ins (vs := [kw .null]) rfl (by simp) ha rfl _ rfl
      | @map ws w hb hw =>
        refine runs_go (At_cons.1 hat).1 (runs_fw (At_cons.1 hat).1 ?_)
        have h1 := (At_append.1 (At_cons.1 hat).2)
        have hle := lt_of_some (At_cons.1 hat).1
        have h2 := rfold_complete n false false .cbOrIdent none [] w (i + 1) ws (.inl ⟨rfl, hb⟩) (by simpa using hw) h1.1
          (by omega) (by omega)
        simp only [runs_bind, runs_assumeInit]
        refine runs_eq h2 ⟨k, rfl, ?_⟩
        simp only [List.nil_append]
        rw [← runs_bind]
        exact ins (vs := tOB :: ws) rfl (by simp) ha rfl _ (by simp; omega)
    | commaOrCb =>
      rcases hT with ⟨rfl, rfl, rfl⟩ | ⟨us, rfl, h⟩
      · refine runs_go (At_cons.1 hat).1 (runs_fw (At_cons.1 hat).1 ?_)
        exact ⟨by simp, rfl⟩
      · refine runs_go (At_cons.1 hat).1 (runs_fw (At_cons.1 hat).1 ?_)
        exact step (vs := [tComma]) (m' := .cbOrIdent) rfl (by simp) h rfl _ rfl

theorem rfold_body {n : Nat} {bp : Bool} {key : Option String} {d es : Dict} {i : Nat} {ts : List Token}
    (h : Body ts es) (hd : Distinct (d ++ es)) (hat : At e i ts) (hn : e.toks.length < i + n) (hi : i ≤ e.toks.length) :
    rfold n bp .cbOrIdent key d e ⟨i, true⟩ = .ok ((false, d ++ es), ⟨i + ts.length, true⟩) :=
  rfold_complete n bp false .cbOrIdent key d es i ts (.inl ⟨rfl, h⟩) hd hat hn hi

theorem rfold_items {n : Nat} {key : Option String} {d es : Dict} {i : Nat} {ts : List Token}
    (h : Items ts es) (hd : Distinct (d ++ es)) (hat : At e i (ts ++ [kw .type])) (hn : e.toks.length < i + n) (hi : i ≤ e.toks.length) :
    rfold n true .cbOrIdent key d e ⟨i, true⟩ = .ok ((true, d ++ es), ⟨i + ts.length + 1, true⟩) := by
  have := rfold_complete n true true .cbOrIdent key d es i _ (.inr ⟨rfl, rfl, ts, rfl, h⟩) hd hat hn hi
  rw [this]
  simp
  omega

theorem rfoldDict_complete {i : Nat} {ts : List Token} {d : Dict} (h : Map ts d) (hat : At e i ts) :
    rfoldDict .ob e ⟨i, true⟩ = .ok (d, ⟨i + ts.length, true⟩) := by
  cases h with
  | mk hb hd =>
    apply eq_of_runs
    simp only [rfoldDict]
    rns
    have := lt_of_some (At_cons.1 hat).1
    exact runs_eq (rfold_complete _ false false .ob none [] d i _ ⟨_, rfl, .inl ⟨rfl, hb⟩⟩ (by simpa using hd) hat (by omega) (by omega))
      ⟨by simp, rfl⟩

/-! ### Types -/

theorem layers_complete : ∀ (n : Nat) (m : LFold) (ty : Option Bytes) (props : Dict) (ls ls' : List LayerSpec) (i : Nat)
    (ts : List Token), LTail m ty props ts ls' → (m ≠ .foldIncomplete → props = []) → At e i ts →
    e.toks.length < i + n → i ≤ e.toks.length → e.toks[i + ts.length]? ≠ some tOB →
    layers n m ty props ls e ⟨i, true⟩ = .ok (ls ++ ls', ⟨i + ts.length, true⟩)
  | 0, _, _, _, _, _, i, _, _, _, _, hn, hi, _ => by omega
  | n + 1, m, ty, props, ls, ls', i, ts, hT, hp, hat, hn, hi, hnx => by
    apply eq_of_runs
    rw [layers]
    have push : ∀ {b : Bytes} {props' : Dict} {ls0 : List LayerSpec} {j : Nat}, ty = some b →
        ls0 ++ [⟨b, props'.isEmpty⟩] = ls ++ ls' → j = i + ts.length →
        runs (pushLayer .final ty props' ls0) e (fun x y => x = ls ++ ls' ∧ y = ⟨i + ts.length, true⟩) ⟨j, true⟩ := by
      intro b props' ls0 j hb h hj
      subst hb hj
      simp only [pushLayer]
      rns
      exact ⟨h, rfl⟩
    cases m with
    | final => exact hT.elim
    | beginIdent =>
      have hT : Ty ts ls' := hT
      have hp := hp (by simp)
      obtain ⟨b, us, rfl⟩ : ∃ b us, ts = .ident b :: us := by cases hT <;> exact ⟨_, _, rfl⟩
      refine runs_go (At_cons.1 hat).1 (runs_fw (At_cons.1 hat).1 ?_)
      have := lt_of_some (At_cons.1 hat).1
      refine runs_eq (layers_complete n .finalOrOb (some b) props ls ls' (i + 1) us ⟨b, rfl, hT⟩ (fun _ => hp) (At_cons.1 hat).2
        (by omega) (by omega) ?_) ⟨rfl, by simp; omega⟩
      rw [show i + 1 + us.length = i + (Token.ident b :: us).length by simp; omega]
      exact hnx
    | finalOrOb =>
      obtain ⟨b, rfl, hT⟩ := hT
      have hp := hp (by simp)
      subst hp
      -- what follows a nested type
      have nested : ∀ {us vs ws : List Token} {d : Dict} {ls1 : List LayerSpec} {ls2 : List LayerSpec}, ts = tOB :: (us ++ kw .type :: tColon :: (vs ++ ws)) →
          Items us d → Distinct d → Ty vs ls1 → LTail .foldIncomplete (some b) d ws ls2 → ls' = ls1 ++ ls2 →
          runs (do
            let (more, props) ← rfold n true .cbOrIdent none []
            if more then
              let c ← roundedEq tColon
              poisonIfNot c
              let ok ← okay
              aheadIf ok
              let ls ← layers n .beginIdent none [] ls
              layers n .foldIncomplete (some b) props ls
            else pushLayer .final (some b) props ls) e (fun x y => x = ls ++ ls' ∧ y = ⟨i + ts.length, true⟩) ⟨i + 1, true⟩ := by
        intro us vs ws d ls1 ls2 h1 h2 h3 h4 h5 h6
        subst h1 h6
        have a0 := At_cons.1 hat
        have a1 := At_append.1 a0.2
        have a2 := At_cons.1 a1.2
        have a3 := At_cons.1 a2.2
        have a4 := At_append.1 a3.2
        have hlt := lt_of_some a3.1
        have hws : ∃ w ws', ws = w :: ws' ∧ w ≠ tOB := by
          obtain ⟨_, _, ⟨rfl, _⟩ | ⟨_, _, rfl, _⟩⟩ := h5 <;> exact ⟨_, _, rfl, by simp⟩
        obtain ⟨w, ws', rfl, hw⟩ := hws
        have a5 := At_cons.1 a4.2
        have hlt5 := lt_of_some a5.1
        simp only [runs_bind]
        refine runs_eq (rfold_items h2 (by simpa using h3) (At_append.2 ⟨a1.1, At_cons.2 ⟨a2.1, At_nil⟩⟩) (by omega) (by omega)) ?_
        simp only [List.nil_append, if_true]
        rns
        refine ⟨by omega, ?_⟩
        simp only [a3.1, decide_true, Bool.and_self, Bool.toNat_true]
        refine runs_eq (layers_complete n .beginIdent none [] ls ls1 _ vs h4 (fun _ => rfl) a4.1 (by omega) (by omega) ?_) ?_
        · rw [a5.1]; simpa using hw
        · refine runs_eq (layers_complete n .foldIncomplete (some b) d (ls ++ ls1) ls2 _ (w :: ws') h5 (by simp) a4.2 (by omega) (by omega) ?_) ?_
          · rw [show i + 1 + us.length + 1 + 1 + vs.length + (w :: ws').length =
              i + (tOB :: (us ++ kw .type :: tColon :: (vs ++ w :: ws'))).length by simp; omega]
            exact hnx
          · exact ⟨by simp, by simp; omega⟩
      generalize hx : (Token.ident b :: ts) = xs at hT
      cases hT with
      | plain b' =>
        cases hx
        simp only [List.length_nil, Nat.add_zero] at hnx
        by_cases hlt : i < e.toks.length
        · obtain ⟨t, ht⟩ : ∃ t, e.toks[i]? = some t := ⟨_, List.getElem?_eq_getElem hlt⟩
          refine runs_go ht (runs_fw ht ?_)
          have htb : t ≠ tOB := by rintro rfl; exact hnx ht
          split
          · simp_all
          · simp_all
          · simp_all
          · simp_all
          · rns
            exact ⟨by omega, push rfl rfl rfl⟩
          · simp_all
        · rns
          refine ⟨hi, ?_⟩
          simp only [hlt, decide_false, Bool.false_and]
          exact push rfl rfl rfl
      | props hb hd =>
        cases hx
        refine runs_go (At_cons.1 hat).1 (runs_fw (At_cons.1 hat).1 ?_)
        have := lt_of_some (At_cons.1 hat).1
        simp only [runs_bind]
        refine runs_eq (rfold_body hb (by simpa using hd) (At_cons.1 hat).2 (by omega) (by omega)) ?_
        simp only [List.nil_append]
        exact push rfl rfl (by simp; omega)
      | nested h1 h2 h3 =>
        cases hx
        refine runs_go (At_cons.1 hat).1 (runs_fw (At_cons.1 hat).1 ?_)
        exact nested rfl h1 h2 h3 ⟨_, rfl, .inl ⟨rfl, rfl⟩⟩ rfl
      | nestedMore h1 h2 h3 h4 =>
        cases hx
        refine runs_go (At_cons.1 hat).1 (runs_fw (At_cons.1 hat).1 ?_)
        exact nested rfl h1 (distinct_left h4) h2 ⟨_, rfl, .inr ⟨_, _, rfl, h3, h4, rfl⟩⟩ rfl
    | foldIncomplete =>
      obtain ⟨b, rfl, ⟨rfl, rfl⟩ | ⟨vs, d, rfl, h1, h2, rfl⟩⟩ := hT
      · refine runs_go (At_cons.1 hat).1 (runs_fw (At_cons.1 hat).1 ?_)
        exact push rfl rfl rfl
      · refine runs_go (At_cons.1 hat).1 (runs_fw (At_cons.1 hat).1 ?_)
        have := lt_of_some (At_cons.1 hat).1
        simp only [runs_bind]
        refine runs_eq (rfold_body h1 h2 (At_cons.1 hat).2 (by omega) (by omega)) ?_
        exact push rfl rfl (by simp; omega)

theorem rfoldLayers_complete {i : Nat} {ts : List Token} {ls : List LayerSpec} (h : Ty ts ls) (hat : At e i ts)
    (hi : i ≤ e.toks.length) (hnx : e.toks[i + ts.length]? ≠ some tOB) :
    rfoldLayers e ⟨i, true⟩ = .ok (ls, ⟨i + ts.length, true⟩) := by
  apply eq_of_runs
  simp only [rfoldLayers]
  rns
  exact runs_eq (layers_complete _ .beginIdent none [] [] ls i ts h (fun _ => rfl) hat (by omega) hi hnx) ⟨by simp, rfl⟩

end Verif.Ql
