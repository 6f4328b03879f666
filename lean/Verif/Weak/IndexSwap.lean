/-
A successful exchange in the primary index under weak memory keeps what is known of the words and of all views.
-/
import Verif.Weak.IndexInv
set_option linter.unusedSectionVars false
namespace Verif.Weak.Index
open Verif.Conc Verif.Trie Verif.Trie.Conc

variable {K V : Type} [DecidableEq K]
variable {hash : K → UInt64} {s s' : St K V} {g : Gh} {v w : View K} {t : Tid} {k : K}

/-- What the thread knows after its exchange. -/
def viewOf (s : St K V) (t : Tid) (σ : Slot) (op : Option (Op K V)) : View K :=
  casView (s.thr t).view σ (s.log σ).length (s.chg.length + 1) op

/-- The word that is written. -/
def msgOf (s : St K V) (t : Tid) (σ : Slot) (last : Msg K) (p : Ptr) (new : Option (Addr × Cell K V)) (op : Option (Op K V)) : Msg K :=
  ⟨⟨p, false⟩, madeBy ((viewOf s t σ op).join last.view) new, s.chg.length + 1⟩

def entryOf (s : St K V) (t : Tid) (op : Option (Op K V)) : Option (Chg K V) := op.map fun x => ⟨t, (s.thr t).num, x⟩

/-- What is needed of an exchange at `σ`. -/
structure SwapOk (hash : K → UInt64) (s s' : St K V) (g : Gh) (t : Tid) (σ : Slot) (last : Msg K) (p0 p : Ptr)
    (new : Option (Addr × Cell K V)) (op : Option (Op K V)) (old : Option Addr) : Prop where
  mem' : s'.mem = s.mem.put new σ ⟨p, false⟩
  log' : s'.log = logPut s.log new σ (msgOf s t σ last p new op)
  chg' : s'.chg = s.chg ++ [entryOf s t op]
  hl : LOk hash s g
  vok : VOk hash s g (s.thr t).view
  kn : (s.thr t).view.knows σ = true
  lst : (s.log σ).getLast? = some last
  lastw : last.w = ⟨p0, false⟩
  wr : WriteOk hash s.mem (s.mem.put new σ ⟨p, false⟩) g (mapOf s.chg) (mapOf (s.chg ++ [entryOf s t op])) σ p0 p new old
  child : ∀ n f j b, new = some (n, .branch f) → (f j).p = .node b →
    ∃ c m, p0 = .node c ∧ (s.log (.of c j)).getLast? = some m ∧ m.w.p = .node b
  kini : ∀ a, p = .leaf a → (∃ c, new = some (a, c)) ∨ ((s.thr t).view.join last.view).ini a = true
  kev : ∀ k, p.term → OnP (hash k) (g.slot σ) → (∀ x, op = some x → opKey x ≠ k) →
    lastChg s.chg k s.chg.length ≤ ((s.thr t).view.join last.view).ev k
  bini : ∀ n f j a, new = some (n, .branch f) → (f j).p = .leaf a ∨ (f j).p = .node a → ((s.thr t).view.join last.view).ini a = true
  bev : ∀ n f j k, new = some (n, .branch f) → (f j).p.term → OnP (hash k) (j :: g.slot σ) →
    lastChg s.chg k s.chg.length ≤ ((s.thr t).view.join last.view).ev k
  opk : ∀ x, op = some x → OnP (hash (opKey x)) (g.slot σ) ∧ p0.term ∧ p.term

section
variable {σ : Slot} {last : Msg K} {p0 p : Ptr} {new : Option (Addr × Cell K V)} {op : Option (Op K V)} {old : Option Addr}

/-- The paths after the exchange. -/
def ghOf (s : St K V) (g : Gh) (new : Option (Addr × Cell K V)) (old : Option Addr) (σ : Slot) : Gh :=
  g.put (new.map (·.1)) old s.mem.pinnedNow σ

theorem SwapOk.freshLog (h : SwapOk hash s s' g t σ last p0 p new op old) {n : Addr} {c : Cell K V} (hn : new = some (n, c)) (i : Fin 16) :
    s.log (.of n i) = [] := h.hl.noLog _ (by simp [St.load, h.wr.fresh n c hn])

theorem SwapOk.σlog (h : SwapOk hash s s' g t σ last p0 p new op old) : s.log σ ≠ [] := by
  intro e
  have := h.lst
  rw [e] at this
  cases this

theorem SwapOk.cases (h : SwapOk hash s s' g t σ last p0 p new op old) {τ : Slot} {j : Nat} {m : Msg K} (hm : (s'.log τ)[j]? = some m) :
    (τ = σ ∧ j = (s.log σ).length ∧ m = msgOf s t σ last p new op) ∨
    (∃ n f i, new = some (n, .branch f) ∧ τ = .of n i ∧ j = 0 ∧ m = ⟨f i, .bot, s.chg.length + 1⟩) ∨
    (s.log τ)[j]? = some m := by
  rw [h.log'] at hm
  simp only [logPut] at hm
  split at hm
  · rename_i e
    subst e
    rcases Nat.lt_or_ge j (s.log τ).length with hj | hj
    · rw [List.getElem?_append_left hj] at hm
      exact .inr (.inr hm)
    · rw [List.getElem?_append_right hj] at hm
      rcases Nat.eq_zero_or_pos (j - (s.log τ).length) with e | e
      · rw [e] at hm
        cases hm
        exact .inl ⟨rfl, by omega, rfl⟩
      · rw [List.getElem?_eq_none (by simp only [List.length_singleton]; omega)] at hm
        cases hm
  · split at hm
    · rename_i n f b i
      split at hm
      · rename_i e
        subst e
        cases j with
        | zero => cases hm; exact .inr (.inl ⟨_, _, _, rfl, rfl, rfl, rfl⟩)
        | succ j => simp at hm
      · exact .inr (.inr hm)
    · exact .inr (.inr hm)

theorem SwapOk.stays (h : SwapOk hash s s' g t σ last p0 p new op old) {τ : Slot} {j : Nat} {m : Msg K} (hm : (s.log τ)[j]? = some m) :
    (s'.log τ)[j]? = some m := by
  rw [h.log']
  simp only [logPut]
  split
  · rename_i e
    subst e
    rw [List.getElem?_append_left (get_len hm)]
    exact hm
  · split
    · split
      · rename_i e
        subst e
        rw [h.freshLog rfl] at hm
        cases hm
      · exact hm
    · exact hm

theorem SwapOk.birth (h : SwapOk hash s s' g t σ last p0 p new op old) {τ : Slot} (hm : s.log τ ≠ []) :
    birth (s'.log τ) = birth (s.log τ) := by
  cases e : s.log τ with
  | nil => exact absurd e hm
  | cons x l =>
    have h1 : (s.log τ)[0]? = some x := by rw [e]; rfl
    rw [birth_eq (h.stays h1)]
    rfl

theorem SwapOk.σnew (h : SwapOk hash s s' g t σ last p0 p new op old) {n : Addr} {c : Cell K V} (hn : new = some (n, c)) (i : Fin 16) :
    Slot.of n i ≠ σ := by
  intro e
  exact h.σlog (e ▸ h.freshLog hn i)

theorem SwapOk.newσ (h : SwapOk hash s s' g t σ last p0 p new op old) : s'.log σ = s.log σ ++ [msgOf s t σ last p new op] := by
  rw [h.log']; simp [logPut]

theorem SwapOk.newLog (h : SwapOk hash s s' g t σ last p0 p new op old) {n : Addr} {f : Fin 16 → Word} (hn : new = some (n, .branch f))
    (i : Fin 16) : s'.log (.of n i) = [⟨f i, .bot, s.chg.length + 1⟩] := by
  rw [h.log']
  simp only [logPut]
  rw [if_neg (h.σnew hn i), hn]
  simp only [if_true]
  rfl

theorem SwapOk.len (h : SwapOk hash s s' g t σ last p0 p new op old) (τ : Slot) : (s.log τ).length ≤ (s'.log τ).length := by
  rcases Nat.eq_zero_or_pos (s.log τ).length with e | e
  · omega
  · obtain ⟨m, hm⟩ : ∃ m, (s.log τ)[(s.log τ).length - 1]? = some m := ⟨_, List.getElem?_eq_getElem (by omega)⟩
    have := get_len (h.stays hm)
    omega

theorem SwapOk.chgLen (h : SwapOk hash s s' g t σ last p0 p new op old) : s'.chg.length = s.chg.length + 1 := by
  rw [h.chg']; simp

theorem SwapOk.lastChg (h : SwapOk hash s s' g t σ last p0 p new op old) {n : Nat} (hn : n ≤ s.chg.length) :
    lastChg s'.chg k n = lastChg s.chg k n := by rw [h.chg']; exact lastChg_append hn

/-- Paths of places with words are kept. -/
theorem SwapOk.slot (h : SwapOk hash s s' g t σ last p0 p new op old) {τ : Slot} (hm : s.log τ ≠ []) :
    (ghOf s g new old σ).slot τ = g.slot τ := by
  cases τ with
  | root => rfl
  | of b i =>
    simp only [Gh.slot, ghOf]
    rw [h.wr.pathOld]
    intro hb
    exact hm (h.hl.noLog _ (by simp [St.load, hb]))

theorem SwapOk.slot' (h : SwapOk hash s s' g t σ last p0 p new op old) {τ : Slot} {j : Nat} {m : Msg K} (hm : (s.log τ)[j]? = some m) :
    (ghOf s g new old σ).slot τ = g.slot τ := h.slot (by intro e; rw [e] at hm; cases hm)

theorem SwapOk.slotNew (_ : SwapOk hash s s' g t σ last p0 p new op old) {n : Addr} {c : Cell K V} (hn : new = some (n, c)) (i : Fin 16) :
    (ghOf s g new old σ).slot (.of n i) = i :: g.slot σ := by
  show i :: (g.put (new.map (·.1)) old s.mem.pinnedNow σ).path n = i :: g.slot σ
  rw [WriteOk.pathNew n c hn]

theorem SwapOk.path (h : SwapOk hash s s' g t σ last p0 p new op old) {a : Addr} (ha : s.mem.heap a ≠ none) :
    (ghOf s g new old σ).path a = g.path a := h.wr.pathOld ha

/-- Old words do not lead to the new node. -/
theorem SwapOk.notNew (h : SwapOk hash s s' g t σ last p0 p new op old) {τ : Slot} {j : Nat} {m : Msg K} {b : Addr}
    (hm : (s.log τ)[j]? = some m) (hb : m.w.p = .node b) : ∀ c, new ≠ some (b, c) := by
  intro c hc
  obtain ⟨⟨f, hf⟩, _⟩ := h.hl.node τ j m b hm hb
  rw [h.wr.fresh b c hc] at hf
  cases hf

theorem SwapOk.alloc (h : SwapOk hash s s' g t σ last p0 p new op old) {a : Addr} (ha : s.mem.heap a ≠ none) : s'.mem.heap a ≠ none := by
  rw [h.mem']
  cases e : s.mem.heap a with
  | none => exact absurd e ha
  | some c =>
    cases c with
    | leaf l => rw [h.wr.put.hLeaf a l e]; simp
    | branch f => rw [h.wr.put.hBranch a f e]; simp

/-- A walk after the exchange was possible before, up to the new branch. -/
theorem SwapOk.walk (h : SwapOk hash s s' g t σ last p0 p new op old) (hv : ∀ τ, v.at_ τ ≤ (s.log τ).length - 1) {d : Slot}
    (hw : Walk s'.log v d) : ((∀ n c i, new = some (n, c) → d ≠ .of n i) → Walk s.log v d) ∧
      (∀ n c i, new = some (n, c) → d = .of n i → Walk s.log v σ) := by
  induction hw with
  | root => exact ⟨fun _ => .root, fun n c i _ e => by cases e⟩
  | @step c j m b i hc h1 h2 h3 ih =>
    have hlast : s.log σ ≠ [] := h.σlog
    rcases h.cases h2 with ⟨rfl, rfl, rfl⟩ | ⟨n, f, i', hn, rfl, rfl, rfl⟩ | hm
    · -- through the new word
      obtain ⟨f, hf⟩ := h.wr.nodeNew b h3
      refine ⟨fun hd => absurd rfl (hd b _ i hf), fun n c' i' hn _ => ?_⟩
      exact ih.1 (fun n' c'' i'' hn' => (h.σnew hn' i'').symm)
    · -- through the new branch
      have hσ := ih.2 n _ i' hn rfl
      obtain ⟨c', m', e1, e2, e3⟩ := h.child n f i' b hn h3
      have e4 : last.w.p = .node c' := by rw [h.lastw]; exact e1
      have w1 : Walk s.log v (.of c' i') := .step i' hσ (hv σ) (last_get h.lst) e4
      have w2 : Walk s.log v (.of b i) := .step i w1 (hv _) (last_get e2) e3
      refine ⟨fun _ => w2, fun n' c'' i'' hn' e => ?_⟩
      cases e
      exact absurd hn' (h.notNew (last_get e2) e3 c'')
    · -- as before
      have hold : ∀ n' c' i', new = some (n', c') → c ≠ .of n' i' := by
        rintro n' c' i' hn' rfl
        rw [h.freshLog hn' i'] at hm
        cases hm
      have w1 := ih.1 hold
      exact ⟨fun _ => .step i w1 h1 hm h3, fun n' c' i' hn' e => by cases e; exact absurd hn' (h.notNew hm h3 c')⟩

theorem SwapOk.walkOld (h : SwapOk hash s s' g t σ last p0 p new op old) (hv : ∀ τ, v.at_ τ ≤ (s.log τ).length - 1) {d : Slot}
    (hw : Walk s'.log v d) {j : Nat} {m : Msg K} (hm : (s.log d)[j]? = some m) : Walk s.log v d := by
  refine (h.walk hv hw).1 ?_
  rintro n c i hn rfl
  rw [h.freshLog hn i] at hm
  cases hm

theorem Rel.back (h : SwapOk hash s s' g t σ last p0 p new op old) {d : Slot} {j : Nat} {m : Msg K} (hm : (s.log d)[j]? = some m)
    {q : Ptr} {n : Nat} (hr : Rel hash (ghOf s g new old σ) k d q n) : Rel hash g k d q n := by
  simp only [Rel, h.slot' hm] at hr
  exact hr

theorem Knows.step (h : SwapOk hash s s' g t σ last p0 p new op old) {τ : Slot} {j : Nat} {m : Msg K} (hm : (s.log τ)[j]? = some m)
    (hk : Knows hash s.chg g v τ m) : Knows hash s'.chg (ghOf s g new old σ) v τ m := by
  refine ⟨hk.ini, fun ht k ho => ?_⟩
  rw [h.slot' hm] at ho
  rw [h.lastChg (h.hl.time τ j m hm).1]
  exact hk.ev ht k ho

theorem SwapOk.get0 (h : SwapOk hash s s' g t σ last p0 p new op old) {b : Addr} (hb : s.mem.heap b ≠ none) {i : Fin 16} {m : Msg K}
    (hm : (s'.log (.of b i))[0]? = some m) : (s.log (.of b i))[0]? = some m := by
  rcases h.cases hm with ⟨e, e', _⟩ | ⟨n, f, i', hn, e, _, _⟩ | hm
  · exact absurd (List.eq_nil_of_length_eq_zero e'.symm) h.σlog
  · cases e
    exact absurd (h.wr.fresh b _ hn) hb
  · exact hm

/-- Every view stays good. -/
theorem SwapOk.keep (h : SwapOk hash s s' g t σ last p0 p new op old) (hv : VOk hash s g v) : VOk hash s' (ghOf s g new old σ) v where
  at_ τ := by have := hv.at_ τ; have := h.len τ; omega
  ini a ha := h.alloc (hv.ini a ha)
  closed b i m hb hm := by
    have hm' := h.get0 (hv.ini b hb) hm
    exact Knows.step h hm' (hv.closed b i m hb hm')
  lead b i k d j m hb h0 ho hd hj hm hr := by
    have hb' := hv.ini b hb
    have h0' : s.log (.of b i) ≠ [] := by
      intro e
      cases e' : s'.log (.of b i) with
      | nil => exact h0 e'
      | cons x l =>
        have := h.get0 hb' (i := i) (m := x) (by rw [e']; rfl)
        rw [e] at this
        cases this
    rw [h.birth h0']
    obtain ⟨m0, hm0⟩ : ∃ m0, (s.log (.of b i))[0]? = some m0 := by
      cases e : s.log (.of b i) with
      | nil => exact absurd e h0'
      | cons x l => exact ⟨x, rfl⟩
    have ht := (h.hl.time _ _ _ hm0).1
    rw [← birth_eq hm0] at ht
    rw [h.path hb'] at ho hr
    rcases h.cases hm with ⟨_, _, rfl⟩ | ⟨_, _, _, _, _, _, rfl⟩ | hm'
    · show _ ≤ s.chg.length + 1; omega
    · show _ ≤ s.chg.length + 1; omega
    · exact hv.lead b i k d j m hb h0' ho (h.walkOld hv.at_ hd hm') hj hm' (Rel.back h hm' hr)
  cov k d j m hd hj hm ht ho := by
    rcases h.cases hm with ⟨_, _, rfl⟩ | ⟨_, _, _, _, _, _, rfl⟩ | hm'
    · have := (hv.ev k).1; show _ ≤ s.chg.length + 1; omega
    · have := (hv.ev k).1; show _ ≤ s.chg.length + 1; omega
    · rw [h.slot' hm'] at ho
      exact hv.cov k d j m (h.walkOld hv.at_ hd hm') hj hm' ht ho
  ev k := by
    have := (hv.ev k).1
    exact ⟨by rw [h.chgLen]; omega, by rw [h.lastChg this]; exact (hv.ev k).2⟩

/-- Among the words that the thread may find, only those of `σ` are as new as `σ`. -/
theorem SwapOk.only (h : SwapOk hash s s' g t σ last p0 p new op old) {d : Slot} {j : Nat} {m : Msg K}
    (hd : Walk s.log (s.thr t).view d) (hj : (s.thr t).view.at_ d ≤ j) (hm : (s.log d)[j]? = some m) (ho : OnP (hash k) (g.slot σ))
    (hr : Rel hash g k d m.w.p (g.slot σ).length) : d = σ := by
  refine h.hl.loc σ p0 k d j m h.wr.ld hm ho hr ?_
  cases e : σ with
  | root =>
    subst e
    have hr' := hr
    have hr0 : (g.slot d).length = 0 ∨ (m.w.p.term ∧ (g.slot d).length ≤ 0) := hr'.2
    have : (g.slot d).length = 0 := by rcases hr0 with h | h <;> omega
    have : d = .root := by
      cases d with
      | root => rfl
      | of b i => simp [Gh.slot] at this
    subst this
    exact (h.hl.time _ _ _ hm).2
  | of b i =>
    subst e
    exact h.vok.lead b i k d j m h.kn h.σlog ho hd hj hm hr

theorem casView_at (τ : Slot) : (s.thr t).view.at_ τ ≤ (viewOf s t σ op).at_ τ := by
  cases op with
  | none => exact mark_at _ _ _ _
  | some x => exact mark_at _ _ _ _

theorem casView_self : (s.log σ).length ≤ (viewOf s t σ op).at_ σ := by
  cases op with
  | none => exact mark_self _ _ _
  | some x => exact mark_self _ _ _

theorem viewOf_ini (a : Addr) : (viewOf s t σ op).ini a = (s.thr t).view.ini a := by cases op <;> rfl

theorem SwapOk.viewOf_at (h : SwapOk hash s s' g t σ last p0 p new op old) (τ : Slot) : (viewOf s t σ op).at_ τ ≤ (s'.log τ).length - 1 := by
  have h1 := h.vok.at_ τ
  have h2 := h.len τ
  have e : (viewOf s t σ op).at_ τ = if τ = σ then max ((s.thr t).view.at_ σ) (s.log σ).length else (s.thr t).view.at_ τ := by
    cases op <;> rfl
  rw [e]
  split
  · rename_i e
    subst e
    rw [h.newσ]
    simp only [List.length_append, List.length_singleton]
    omega
  · omega

theorem viewOf_ev (k : K) : (s.thr t).view.ev k ≤ s.chg.length → (s.thr t).view.ev k ≤ (viewOf s t σ op).ev k := by
  intro h
  cases op with
  | none => exact Nat.le_refl _
  | some x =>
    show _ ≤ if k = opKey x then s.chg.length + 1 else (s.thr t).view.ev k
    split <;> omega

/-- The view of the thread after its exchange. -/
theorem SwapOk.own (h : SwapOk hash s s' g t σ last p0 p new op old) : VOk hash s' (ghOf s g new old σ) (viewOf s t σ op) where
  at_ := h.viewOf_at
  ini a ha := (h.keep h.vok).ini a (by rw [viewOf_ini] at ha; exact ha)
  closed b i m hb hm := by
    rw [viewOf_ini] at hb
    exact ((h.keep h.vok).closed b i m hb hm).mono (fun a ha => by rw [viewOf_ini]; exact ha)
      (fun k => viewOf_ev k (h.vok.ev k).1)
  lead b i k d j m hb h0 ho hd hj hm hr := by
    rw [viewOf_ini] at hb
    exact (h.keep h.vok).lead b i k d j m hb h0 ho (hd.anti casView_at) (Nat.le_trans (casView_at _) hj) hm hr
  cov k d j m hd hj hm ht ho := by
    have hd' := hd.anti (casView_at (s := s) (t := t) (σ := σ) (op := op))
    have hkeep := (h.keep h.vok).cov k d j m hd' (Nat.le_trans (casView_at _) hj) hm ht ho
    cases e : op with
    | none => exact hkeep
    | some x =>
      show (if k = opKey x then s.chg.length + 1 else (s.thr t).view.ev k) ≤ m.time
      split
      · rename_i hk
        subst hk
        obtain ⟨hx, t0, t1⟩ := h.opk x e
        rcases h.cases hm with ⟨_, _, rfl⟩ | ⟨_, _, _, _, _, _, rfl⟩ | hm'
        · exact Nat.le_refl _
        · exact Nat.le_refl _
        · exfalso
          have hj1 := Nat.le_trans (casView_at (s := s) (t := t) (σ := σ) (op := op) d) hj
          have hnb : ∀ n f, new ≠ some (n, .branch f) := by
            intro n f hn
            exact t1 n (h.wr.brNew n f hn).1
          rw [h.slot' hm'] at ho
          -- the walk existed before with the new view as well
          have hw : ∀ d', Walk s'.log (viewOf s t σ op) d' → Walk s.log (viewOf s t σ op) d' := by
            intro d' hd'
            induction hd' with
            | root => exact .root
            | @step c j m b i hc h1 h2 h3 ih =>
              rcases h.cases h2 with ⟨_, _, rfl⟩ | ⟨n, f, _, hn, _, _, _⟩ | hm2
              · exact absurd h3 (t1 b)
              · exact absurd hn (hnb n f)
              · exact .step i ih h1 hm2 h3
          have hdo := hw d hd
          have hdv := hdo.anti (casView_at (s := s) (t := t) (σ := σ) (op := op))
          rcases Nat.lt_or_ge (g.slot σ).length (g.slot d).length with hlt | hge
          · obtain ⟨c, j', m', b, w1, w2, w3, w4, w5, w6⟩ := h.hl.pass hdo ho hlt
            have := h.only (w1.anti casView_at) (Nat.le_trans (casView_at _) w2) w3 hx ⟨w6, .inl w5⟩
            subst this
            have h5 := get_len w3
            have h6 := casView_self (s := s) (t := t) (σ := c) (op := op)
            omega
          · have := h.only hdv hj1 hm' hx ⟨ho, .inr ⟨ht, hge⟩⟩
            subst this
            have h5 := get_len hm'
            have h6 := casView_self (s := s) (t := t) (σ := d) (op := op)
            omega
      · exact hkeep
  ev k := by
    cases e : op with
    | none => exact (h.keep h.vok).ev k
    | some x =>
      show (if k = opKey x then s.chg.length + 1 else (s.thr t).view.ev k) ≤ _ ∧
        Index.lastChg s'.chg k (if k = opKey x then s.chg.length + 1 else (s.thr t).view.ev k) =
          if k = opKey x then s.chg.length + 1 else (s.thr t).view.ev k
      split
      · rename_i hk
        refine ⟨by rw [h.chgLen]; omega, ?_⟩
        rw [h.chg', entryOf, e]
        exact lastChg_hit hk.symm
      · exact (h.keep h.vok).ev k

/-- What the new word knows, without the new node. -/
theorem SwapOk.both (h : SwapOk hash s s' g t σ last p0 p new op old) :
    VOk hash s' (ghOf s g new old σ) ((viewOf s t σ op).join last.view) :=
  h.own.join (h.keep (h.hl.view σ _ last (last_get h.lst)))

theorem both_ini {a : Addr} (ha : ((s.thr t).view.join last.view).ini a = true) : ((viewOf s t σ op).join last.view).ini a = true := by
  simp only [View.join, viewOf_ini]
  exact ha

theorem SwapOk.both_ev (h : SwapOk hash s s' g t σ last p0 p new op old) (k : K) :
    ((s.thr t).view.join last.view).ev k ≤ ((viewOf s t σ op).join last.view).ev k := by
  have := viewOf_ev (σ := σ) (op := op) k (h.vok.ev k).1
  simp only [View.join]
  omega

/-- In a new branch everything is as new as the branch. -/
theorem SwapOk.msgView (h : SwapOk hash s s' g t σ last p0 p new op old) :
    VOk hash s' (ghOf s g new old σ) (msgOf s t σ last p new op).view := by
  cases hn : new with
  | none =>
    have := h.both
    rw [hn] at this
    exact this
  | some x =>
    obtain ⟨n, c⟩ := x
    have hb := h.both
    have hwk : ∀ {d}, Walk s'.log (((viewOf s t σ op).join last.view).made n) d → Walk s'.log ((viewOf s t σ op).join last.view) d :=
      fun hd => Walk.anti (v := (viewOf s t σ op).join last.view) (w := ((viewOf s t σ op).join last.view).made n) (fun _ => Nat.le_refl _) hd
    have hnot : ((viewOf s t σ op).join last.view).ini n ≠ true := by
      intro hi
      simp only [View.join, viewOf_ini, Bool.or_eq_true] at hi
      rcases hi with hi | hi
      · exact h.vok.ini n hi (h.wr.fresh n c hn)
      · exact (h.hl.view σ _ last (last_get h.lst)).ini n hi (h.wr.fresh n c hn)
    show VOk hash s' (ghOf s g (some (n, c)) old σ) (((viewOf s t σ op).join last.view).made n)
    rw [← hn]
    refine ⟨hb.at_, fun a ha => ?_, fun b i m hbi hm => ?_, fun b i k d j m hbi h0 ho hd hj hm hr => ?_,
      fun k d j m hd hj hm ht ho => hb.cov k d j m (hwk hd) hj hm ht ho, hb.ev⟩
    · simp only [View.made, Bool.or_eq_true, decide_eq_true_eq] at ha
      rcases ha with rfl | ha
      · rw [h.mem', h.wr.put.hNew a c hn]; simp
      · exact hb.ini a ha
    · simp only [View.made, Bool.or_eq_true, decide_eq_true_eq] at hbi
      rcases hbi with rfl | hbi
      · cases c with
        | leaf l =>
          have : s'.log (.of b i) = [] := by
            rw [h.log']
            simp only [logPut]
            rw [if_neg (h.σnew hn i), hn]
            exact h.freshLog hn i
          rw [this] at hm
          cases hm
        | branch f =>
          rw [h.newLog hn i] at hm
          cases hm
          refine ⟨fun a ha => ?_, fun ht k ho => ?_⟩
          · simp only [View.made, Bool.or_eq_true]
            exact .inr (both_ini (h.bini b f i a hn ha))
          · rw [h.slotNew hn i] at ho
            show Index.lastChg s'.chg k (s.chg.length + 1) ≤ _
            have hop : op = none := by
              cases e : op with
              | none => rfl
              | some x => exact absurd (h.wr.brNew b f hn).1 ((h.opk x e).2.2 b)
            rw [h.chg', lastChg_miss (by rw [entryOf, hop]; simp)]
            exact Nat.le_trans (h.bev b f i k hn ht ho) (h.both_ev k)
      · exact (hb.closed b i m hbi hm).mono (fun a ha => by simp [View.made, ha]) (fun _ => Nat.le_refl _)
    · simp only [View.made, Bool.or_eq_true, decide_eq_true_eq] at hbi
      rcases hbi with rfl | hbi
      · cases c with
        | leaf l =>
          have : s'.log (.of b i) = [] := by
            rw [h.log']
            simp only [logPut]
            rw [if_neg (h.σnew hn i), hn]
            exact h.freshLog hn i
          exact absurd this h0
        | branch f =>
          rw [h.newLog hn i]
          show s.chg.length + 1 ≤ m.time
          have hpath : (ghOf s g new old σ).path b = g.slot σ := WriteOk.pathNew b _ hn
          rw [hpath] at ho hr
          have hd1 := hwk hd
          have hj1 : ((viewOf s t σ op).join last.view).at_ d ≤ j := hj
          rcases h.cases hm with ⟨_, _, rfl⟩ | ⟨_, _, _, _, _, _, rfl⟩ | hm'
          · exact Nat.le_refl _
          · exact Nat.le_refl _
          · exfalso
            have hpn := (h.wr.brNew b f hn).1
            have hr' := Rel.back h hm' hr
            have hvat : ∀ τ, (s.thr t).view.at_ τ ≤ ((viewOf s t σ op).join last.view).at_ τ :=
              fun τ => Nat.le_trans (casView_at τ) (join_at_l τ)
            have hself : (s.log σ).length ≤ ((viewOf s t σ op).join last.view).at_ σ :=
              Nat.le_trans casView_self (join_at_l σ)
            rcases Nat.lt_or_ge (g.slot σ).length (g.slot d).length with hlt | hge
            · -- one level below: through `σ`
              cases hd1 with
              | root => simp [Gh.slot] at hlt
              | @step c j' m' b' i' hc h1 h2 h3 =>
                have hlen : (g.slot (.of b' i')).length = (g.slot σ).length + 1 := by
                  rcases hr'.2 with e | ⟨_, e⟩ <;> omega
                rcases h.cases h2 with ⟨rfl, rfl, rfl⟩ | ⟨n2, f2, i2, hn2, rfl, rfl, rfl⟩ | hm2
                · have : b' = b := by
                    have e : p = .node b' := h3
                    rw [hpn] at e
                    cases e
                    rfl
                  subst this
                  rw [h.freshLog hn i'] at hm'
                  cases hm'
                · obtain ⟨c3, m3, e1, e2, e3⟩ := h.child n2 f2 i2 b' hn2 h3
                  have hp3 := (h.hl.node _ _ _ _ (last_get e2) e3).2
                  have hpc := (h.hl.node σ _ last c3 (last_get h.lst) (by rw [h.lastw]; exact e1)).2
                  have hlen' : (g.path b').length + 1 = (g.slot σ).length + 1 := hlen
                  have hp3' : g.path b' = i2 :: g.path c3 := hp3
                  rw [hp3', hpc] at hlen'
                  simp at hlen'
                · have hp2 := (h.hl.node _ _ _ _ hm2 h3).2
                  have hlc : (g.slot c).length = (g.slot σ).length := by
                    have hlen' : (g.path b').length + 1 = (g.slot σ).length + 1 := hlen
                    rw [hp2] at hlen'
                    omega
                  have hoc : OnP (hash k) (g.slot c) := by
                    have := hr'.1
                    simp only [Gh.slot] at this
                    rw [← hp2]
                    exact this.2
                  have hwo := h.walkOld h.vok.at_ (hc.anti hvat) hm2
                  have := h.only hwo (Nat.le_trans (hvat _) h1) hm2 ho.2 ⟨hoc, .inl hlc⟩
                  subst this
                  have := get_len hm2
                  omega
            · have ht : m.w.p.term := by
                rcases hr'.2 with e | e
                · omega
                · exact e.1
              have := h.only (h.walkOld h.vok.at_ (hd1.anti hvat) hm') (Nat.le_trans (hvat _) hj1) hm' ho.2 ⟨hr'.1, .inr ⟨ht, hge⟩⟩
              subst this
              have := get_len hm'
              omega
      · exact hb.lead b i k d j m hbi h0 ho (hwk hd) hj hm hr

end

end Verif.Weak.Index
