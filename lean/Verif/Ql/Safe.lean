import Verif.Ql.Wp
/-!
The parts of the parser never crash: dictionaries, types, names, clauses, values. Each lemma also says
where the cursor ends and that the flag is never raised again, and counts the braces that were consumed.
-/
namespace Verif.Ql
open Verif.Lex (Token Symbol Keyword KwStmt KwMisc Lit)
open Verif.Enc (DVal Dict)
open Verif.Gns (get put)

variable {e : Env}

/-- What a brace contributes to the nesting. -/
def br : Token → Int
  | .sym .ttOpenBrace => 1
  | .sym .ttCloseBrace => -1
  | _ => 0

/-- Open braces minus closed braces among the first `i` tokens. -/
def bal (e : Env) (i : Nat) : Int := ((e.toks.take i).map br).sum

theorem bal_succ {i : Nat} {t : Token} (h : e.toks[i]? = some t) : bal e (i + 1) = bal e i + br t := by
  unfold bal
  rw [List.take_add_one, h]
  simp

/-- How many braces of its own a dictionary has open in a state. -/
def DFold.op : DFold → Int
  | .ob => 0
  | _ => 1

/-- The outcome of `rfold`. -/
structure RfoldPost (e : Env) (b : Bool) (m : DFold) (s : St) (r : Bool × Dict) (s' : St) : Prop where
  plain : b = false → r.1 = false
  ge : s.i ≤ s'.i
  le : s'.i ≤ e.toks.length
  flag : s'.f = true → s.f = true
  bp : r.1 = true → s'.f = true
  done : s'.f = true → bal e s'.i = bal e s.i - m.op + r.1.toNat
  cut : s'.f = false → s'.i = e.toks.length → m ≠ .ob → bal e s.i ≤ bal e s'.i
  off : s.f = false → s'.i = s.i
  last : r.1 = true → e.toks[s'.i - 1]? = some (kw .type)

theorem rfold_safe : ∀ (n : Nat) (bp : Bool) (m : DFold) (key : Option String) (d : Dict) (s : St),
    e.toks.length + 1 ≤ n + s.i → s.i ≤ e.toks.length → (m = .colon ∨ m = .litOrOb → key.isSome = true) →
    m ≠ .final → wp (rfold n bp m key d) e (RfoldPost e bp m s) s
  | 0, _, _, _, _, s, hn, hi, _, _ => by omega
  | n + 1, bp, m, key, d, s, hn, hi, hk, hm => by
    have step : ∀ (m' : DFold) (key' : Option String) (d' : Dict) (t : Token) (f' : Bool),
        s.i < e.toks.length → s.f = true →
        e.toks[s.i]? = some t → (m' = .colon ∨ m' = .litOrOb → key'.isSome = true) → m' ≠ .final → m' ≠ .ob →
        br t - m'.op = - m.op →
        wp (rfold n bp m' key' d') e (RfoldPost e bp m s) ⟨s.i + 1, f'⟩ := by
      intro m' key' d' t f' hlt hf ht hk' hm' hob hb
      refine wp_mono (rfold_safe n bp m' key' d' ⟨s.i + 1, f'⟩ (by simp; omega) (by simp; omega) hk' hm') ?_
      rintro ⟨r, d''⟩ s' ⟨h0, h1, h2, h3, h4, h5, h6, h7, h8⟩
      have hbs := bal_succ ht
      have hop : m'.op = 1 := by cases m' <;> simp_all [DFold.op]
      refine ⟨h0, by simp at h1; omega, h2, fun _ => hf, h4, fun h => ?_, fun h h' h'' => ?_, fun h => by simp_all, h8⟩
      · have := h5 h; simp at this ⊢; omega
      · have := h6 h h' hob
        have : m.op = 1 := by cases m <;> simp_all [DFold.op]
        simp_all; omega
    simp only [rfold, wp_bind, wp_loopTt, wp_ite]
    refine ⟨hi, ?_, ?_⟩
    · intro hgo
      simp only [Bool.and_eq_true, decide_eq_true_eq] at hgo
      obtain ⟨hlt, hf⟩ := hgo
      simp only [wp_fwRead]
      refine ⟨hlt, fun t ht => ?_⟩
      have hbs := bal_succ ht
      split
      · exact step _ _ _ _ _ hlt hf ht (by simp) (by simp) (by simp) (by simp [br, DFold.op])
      · simp only [wp_pure]
        exact ⟨by simp, by simp, by simp; omega, fun _ => hf, by simp, fun _ => by simp [br, DFold.op] at hbs ⊢; omega,
          by simp [hf], by simp [hf], by simp⟩
      · simp only [wp_pure]
        exact ⟨by simp, by simp, by simp; omega, fun _ => hf, by simp, fun _ => by simp [br, DFold.op] at hbs ⊢; omega,
          by simp [hf], by simp [hf], by simp⟩
      · exact step _ _ _ _ _ hlt hf ht (by simp) (by simp) (by simp) (by simp [br, DFold.op])
      · exact step _ _ _ _ _ hlt hf ht (by simpa using hk) (by simp) (by simp) (by simp [br, DFold.op])
      · obtain ⟨k, rfl⟩ := Option.isSome_iff_exists.1 (hk (Or.inr rfl))
        simp only [wp_bind, wp_assumeInit, insertNew, wp_poisonIfNot, wp_pure]
        exact ⟨k, rfl, step _ _ _ _ _ hlt hf ht (by simp) (by simp) (by simp) (by simp [br, DFold.op])⟩
      · obtain ⟨k, rfl⟩ := Option.isSome_iff_exists.1 (hk (Or.inr rfl))
        simp only [wp_bind, wp_assumeInit, insertNew, wp_poisonIfNot, wp_pure]
        exact ⟨k, rfl, step _ _ _ _ _ hlt hf ht (by simp) (by simp) (by simp) (by simp [br, DFold.op])⟩
      · obtain ⟨k, rfl⟩ := Option.isSome_iff_exists.1 (hk (Or.inr rfl))
        simp only [wp_bind]
        refine wp_mono (rfold_safe n false .cbOrIdent none [] ⟨s.i + 1, s.f⟩ (by simp; omega) (by simp; omega)
          (by simp) (by simp)) ?_
        rintro ⟨r, nd⟩ s1 h
        simp only [wp_bind, wp_assumeInit, insertNew, wp_poisonIfNot, wp_pure]
        refine ⟨k, rfl, ?_⟩
        have hge := h.ge
        simp only at hge
        refine wp_mono (rfold_safe n bp .commaOrCb none _ _ (by simp; omega) (by simpa using h.le) (by simp) (by simp)) ?_
        rintro ⟨r', d'⟩ s2 h'
        have hge' := h'.ge
        simp only at hge'
        refine ⟨h'.plain, by omega, h'.le, fun _ => hf, h'.bp, fun hd => ?_, fun hc hc' _ => ?_, by simp [hf], h'.last⟩
        · have hfl := h'.flag hd
          simp only [Bool.and_eq_true] at hfl
          have h1 := h.done hfl.1
          have h2 := h'.done hd
          have hr : r = false := h.plain rfl
          simp [br, DFold.op, hr] at hbs h1 h2 ⊢
          omega
        · have hr : r = false := h.plain rfl
          by_cases h1 : s1.f = true
          · have hd := h.done h1
            by_cases h2 : (get d k).isNone = true
            · have := h'.cut hc hc' (by simp)
              simp [br, DFold.op, hr] at hbs hd this ⊢
              omega
            · have := h'.off (by simp [h2])
              simp [br, DFold.op, hr] at hbs hd this ⊢
              rw [this]; omega
          · have hi2 := h'.off (by simp [h1])
            simp only at hi2
            have := h.cut (by simpa using h1) (by omega) (by simp)
            simp [br] at hbs this ⊢
            rw [hi2]; omega
      · exact step _ _ _ _ _ hlt hf ht (by simp) (by simp) (by simp) (by simp [br, DFold.op])
      · split
        · rename_i hc
          simp only [Bool.and_eq_true, beq_iff_eq] at hc
          obtain ⟨⟨hb, hm⟩, ht'⟩ := hc
          subst ht' hm
          simp only [wp_pure]
          exact ⟨by simp [hb], by simp, by simp; omega, fun _ => hf, by simp [hf],
            fun _ => by simp [br, DFold.op] at hbs ⊢; omega, by simp [hf], by simp [hf], fun _ => by simpa using ht⟩
        · simp only [wp_bind, wp_backBy, wp_poison, wp_pure]
          exact ⟨by omega, by simp, by simp, by simp; omega, by simp, by simp, by simp, fun _ h => by simp at h; omega, by simp [hf], by simp⟩
    · intro hgo
      simp only [wp_poisonIfNot, wp_pure]
      have : (m == .final) = false := by simpa using hm
      exact ⟨by simp, by simp, hi, by simp +contextual, by simp, by simp [this], by simp, by simp, by simp⟩

/-- How many braces a type has open in a state. -/
def LFold.op : LFold → Int
  | .foldIncomplete => 1
  | _ => 0

/-- The outcome of `layers`. -/
structure LayersPost (e : Env) (m : LFold) (s : St) (s' : St) : Prop where
  ge : s.i ≤ s'.i
  le : s'.i ≤ e.toks.length
  flag : s'.f = true → s.f = true
  done : s'.f = true → bal e s'.i = bal e s.i - m.op
  cut : s'.i = e.toks.length → bal e s.i - m.op ≤ bal e s'.i
  off : s.f = false → s'.i = s.i

theorem wp_pushLayer {m : LFold} {ty : Option Bytes} {props : Dict} {ls : List LayerSpec} {s : St}
    {Q : List LayerSpec → St → Prop} (ht : m ≠ .beginIdent → ty.isSome = true)
    (h1 : ∀ ls, (m = .final ∨ m = .finalOrOb) → s.f = true → Q ls s)
    (h2 : ∀ ls, (¬ (m = .final ∨ m = .finalOrOb) ∨ s.f = false) → Q ls ⟨s.i, false⟩) :
    wp (pushLayer m ty props ls) e Q s := by
  simp only [pushLayer, wp_bind, wp_okay, wp_ite, wp_assumeInit, wp_pure, wp_poison]
  refine ⟨fun h => ?_, fun h => ?_⟩
  · simp at h
    have : ty.isSome = true := ht (by rcases h.1 with h | h <;> simp [h])
    obtain ⟨t, rfl⟩ := Option.isSome_iff_exists.1 this
    exact ⟨t, rfl, h1 _ h.1 h.2⟩
  · apply h2
    simp at h
    by_cases h' : m = .final ∨ m = .finalOrOb
    · exact Or.inr (h h')
    · exact Or.inl h'

theorem layers_safe : ∀ (n : Nat) (m : LFold) (ty : Option Bytes) (props : Dict) (ls : List LayerSpec) (s : St),
    e.toks.length + 1 ≤ n + s.i → s.i ≤ e.toks.length → (m ≠ .beginIdent → ty.isSome = true) → m ≠ .final →
    wp (layers n m ty props ls) e (fun _ s' => LayersPost e m s s') s
  | 0, _, _, _, _, s, hn, hi, _, _ => by omega
  | n + 1, m, ty, props, ls, s, hn, hi, ht, hm => by
    simp only [layers, wp_bind, wp_loopTt, wp_ite]
    refine ⟨hi, ?_, ?_⟩
    · intro hgo
      simp only [Bool.and_eq_true, decide_eq_true_eq] at hgo
      obtain ⟨hlt, hf⟩ := hgo
      simp only [wp_fwRead]
      refine ⟨hlt, fun t htk => ?_⟩
      have hbs := bal_succ htk
      split
      · refine wp_mono (layers_safe n .finalOrOb _ props ls ⟨s.i + 1, s.f⟩ (by simp; omega) (by simp; omega)
          (by simp) (by simp)) ?_
        rintro _ s' ⟨h1, h2, h3, h4, h5, h6⟩
        simp [br, LFold.op] at *
        exact ⟨by omega, h2, fun _ => hf, fun h => by have := h4 h; simp [LFold.op]; omega,
          fun h => by have := h5 h; simp [LFold.op]; omega, by simp [hf]⟩
      · have hty := ht (by simp)
        simp only [wp_bind]
        refine wp_mono (rfold_safe n true .cbOrIdent none props ⟨s.i + 1, s.f⟩ (by simp; omega) (by simp; omega)
          (by simp) (by simp)) ?_
        rintro ⟨more, pr⟩ s1 h1
        have hge := h1.ge
        have hle := h1.le
        simp only at hge
        simp only [wp_ite, wp_bind]
        refine ⟨fun hmore => ?_, fun hmore => ?_⟩
        · have hf1 := h1.bp hmore
          have hb1 := h1.done hf1
          simp only [hmore, DFold.op] at hb1
          simp only [br] at hbs
          simp only [wp_roundedEq, wp_poisonIfNot, wp_okay, wp_aheadIf]
          refine ⟨by omega, ?_⟩
          have hcol : e.toks[s1.i]? = some tColon → bal e (s1.i + 1) = bal e s1.i := by
            intro hc; have := bal_succ hc; simp [br] at this; omega
          generalize hc : decide (e.toks[s1.i]? = some tColon) = c
          have hi2 : s1.i + (s1.f && c).toNat ≤ e.toks.length := by
            cases c
            · simp; omega
            · simp at hc; have := lt_of_some hc; simp [hf1]; omega
          have hb2 : bal e (s1.i + (s1.f && c).toNat) = bal e s1.i := by
            cases c
            · simp
            · simp at hc; simpa [hf1] using hcol hc
          refine wp_mono (layers_safe n .beginIdent none [] ls ⟨s1.i + (s1.f && c).toNat, s1.f && c⟩
            (by simp; omega) hi2 (by simp) (by simp)) ?_
          rintro ls3 s3 h3
          have hge3 := h3.ge
          simp only at hge3
          refine wp_mono (layers_safe n .foldIncomplete ty pr ls3 s3 (by omega) h3.le (by simpa using hty) (by simp)) ?_
          rintro _ s4 h4
          have hge4 := h4.ge
          refine ⟨by omega, h4.le, fun _ => hf, fun h => ?_, fun h => ?_, by simp [hf]⟩
          · have a := h4.done h
            have b := h3.done (h4.flag h)
            simp [LFold.op] at a b hb1 ⊢
            omega
          · have a := h4.cut h
            by_cases hf3 : s3.f = true
            · have b := h3.done hf3
              simp [LFold.op] at a b hb1 ⊢
              omega
            · have c := h4.off (by simpa using hf3)
              have b := h3.cut (by omega)
              simp [LFold.op] at a b hb1 ⊢
              omega
        · have hmore : more = false := by simpa using hmore
          have hd := h1.done
          have hc := h1.cut
          simp [hmore, DFold.op, br] at hd hc hbs
          refine wp_pushLayer (fun _ => hty) (fun _ _ hf1 => ?_) (fun _ hf1 => ?_)
          · have := hd hf1
            exact ⟨by omega, hle, fun _ => hf, fun _ => by simp [LFold.op]; omega,
              fun _ => by simp [LFold.op]; omega, by simp [hf]⟩
          · simp at hf1
            exact ⟨by simp; omega, hle, fun _ => hf, by simp,
              fun h => by have := hc hf1 h; simp [LFold.op]; omega, by simp [hf]⟩
      · simp [br] at hbs
        refine wp_pushLayer (fun _ => ht (by simp)) (fun _ _ hf1 => ?_) (fun _ hf1 => by simp [hf] at hf1)
        exact ⟨by simp, by simp; omega, fun _ => hf, fun _ => by simp [LFold.op]; omega,
          fun _ => by simp [LFold.op]; omega, by simp [hf]⟩
      · have hty := ht (by simp)
        simp only [wp_bind]
        refine wp_mono (rfold_safe n false .cbOrIdent none props ⟨s.i + 1, s.f⟩ (by simp; omega) (by simp; omega)
          (by simp) (by simp)) ?_
        rintro ⟨more, pr⟩ s1 h1
        have hge := h1.ge
        have hle := h1.le
        have hmore : more = false := h1.plain rfl
        simp only at hge
        have hd := h1.done
        have hc := h1.cut
        simp [hmore, DFold.op, br] at hd hc hbs
        refine wp_pushLayer (fun _ => hty) (fun _ _ hf1 => ?_) (fun _ hf1 => ?_)
        · have := hd hf1
          exact ⟨by omega, hle, fun _ => hf, fun _ => by simp [LFold.op]; omega,
            fun _ => by simp [LFold.op]; omega, by simp [hf]⟩
        · simp at hf1
          exact ⟨by simp; omega, hle, fun _ => hf, by simp,
            fun h => by have := hc hf1 h; simp [LFold.op]; omega, by simp [hf]⟩
      · simp only [wp_bind, wp_backBy]
        refine ⟨by omega, wp_pushLayer (fun _ => ht (by simp)) (fun _ _ hf1 => ?_) (fun _ hf1 => by simp [hf] at hf1)⟩
        exact ⟨by simp, by simp; omega, fun _ => hf, fun _ => by simp [LFold.op],
          fun h => by simp at h; omega, by simp [hf]⟩
      · simp only [wp_bind, wp_backBy, wp_poison]
        refine ⟨by omega, wp_pushLayer ht (fun _ _ hf1 => by simp at hf1) (fun _ hf1 => ?_)⟩
        exact ⟨by simp, by simp; omega, by simp, by simp, fun h => by simp at h; omega, by simp [hf]⟩
    · intro hgo
      refine wp_pushLayer ht (fun _ hm' hf1 => ?_) (fun _ hf1 => ?_)
      · have : m.op = 0 := by rcases hm' with rfl | rfl <;> rfl
        exact ⟨by simp, hi, fun _ => hf1, fun _ => by simp [this], fun _ => by simp [this], by simp⟩
      · refine ⟨by simp, hi, by simp, by simp, fun _ => ?_, by simp⟩
        cases m <;> simp [LFold.op] <;> omega

end Verif.Ql
