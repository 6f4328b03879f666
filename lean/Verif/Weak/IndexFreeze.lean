/-
Exchanges and frozen words of the primary index under weak memory, for all threads.
-/
import Verif.Weak.IndexExt
set_option linter.unusedSectionVars false
namespace Verif.Weak.Index
open Verif.Conc Verif.Trie Verif.Trie.Conc

variable {K V : Type} [DecidableEq K]
variable {hash : K → UInt64} {s s' : St K V} {g g' : Gh} {v w : View K} {t u : Tid} {k : K}

/-! ## Exchanges -/

section
variable {σ : Slot} {last : Msg K} {p0 p : Ptr} {new : Option (Addr × Cell K V)} {op : Option (Op K V)} {old : Option Addr}

theorem SwapOk.ext (h : SwapOk hash s s' g t σ last p0 p new op old) : Ext hash s s' g (ghOf s g new old σ) where
  log _ _ _ hm := h.stays hm
  chg := ⟨_, h.chg'⟩
  path a ha := h.path ha
  leaf a l ha := by rw [h.mem']; exact h.wr.put.hLeaf a l ha
  branch b f hb := by
    refine ⟨_, by rw [h.mem']; exact h.wr.put.hBranch b f hb, fun i hi => ?_⟩
    by_cases e : Slot.of b i = σ
    · exfalso
      have hld := h.wr.ld
      rw [← e] at hld
      simp only [St.load, hb, Option.some.injEq] at hld
      rw [hld] at hi
      cases hi
    · simp [e]
  vok v hv := h.keep hv
  froz τ m hm hp := by
    have e1 : τ ≠ σ := by
      rintro rfl
      rw [h.lst] at hm
      cases hm
      rw [h.lastw] at hp
      cases hp
    have e2 : ∀ n f i, new = some (n, .branch f) → τ ≠ .of n i := by
      rintro n f i hn rfl
      rw [h.freshLog hn i] at hm
      cases hm
    exact ⟨m, by rw [h.same e1 e2]; exact hm, rfl, rfl⟩

theorem SwapOk.le (h : SwapOk hash s s' g t σ last p0 p new op old) : VLe (s.thr t).view (viewOf s t σ op) :=
  ⟨casView_at, fun a ha => by rw [viewOf_ini]; exact ha, fun k => viewOf_ev k (h.vok.ev k).1⟩

/-- The thread knows what it exchanged; nobody else is affected. -/
theorem Inv.swapped (hi : Inv hash s g) {pc : Pc K V}
    (h : SwapOk hash s (s.swap code t σ last p new op pc) g t σ last p0 p new op old)
    (hok : PcOk hash (s.swap code t σ last p new op pc).mem (gv (ghOf s g new old σ) (viewOf s t σ op)) t pc)
    (hcz : ∀ i x, pc ≠ .cz i x) (hcr : ∀ i b x, pc ≠ .czRead i b x)
    (habs : WAbs hash (s.swap code t σ last p new op pc) (ghOf s g new old σ) t pc) :
    Inv hash (s.swap code t σ last p new op pc) (ghOf s g new old σ) := by
  have e1 : ((s.swap code t σ last p new op pc).thr t).view = viewOf s t σ op := by simp [St.swap, viewOf]
  have e2 : ((s.swap code t σ last p new op pc).thr t).pc = pc := by simp [St.swap]
  have e3 : ((s.swap code t σ last p new op pc).thr t).num = (s.thr t).num := by simp [St.swap]
  have hlast : ∀ (n : Nat) c, s.chg.length ≤ n → (s.swap code t σ last p new op pc).chg[n]? = some (some c) → entryOf s t op = some c := by
    intro n c hn hc
    rw [h.chg', List.getElem?_append_right hn] at hc
    rcases Nat.eq_zero_or_pos (n - s.chg.length) with e | e
    · rw [e] at hc
      exact Option.some.inj hc
    · rw [List.getElem?_eq_none (by simp only [List.length_singleton]; omega)] at hc
      cases hc
  have hent : ∀ c, entryOf s t op = some c → c.t = t ∧ c.num = (s.thr t).num := by
    intro c hc
    cases op with
    | none => cases hc
    | some x => cases hc; exact ⟨rfl, rfl⟩
  refine hi.step t h.ext h.lok (fun u hu => by simp [St.swap, hu]) (fun n c hn hc => (hent c (hlast n c hn hc)).1) ?_
  refine ⟨by rw [e1]; exact h.own, by rw [e1, e2]; exact hok, ?_, by rw [e2]; exact habs, ?_⟩
  · rw [e2]
    cases pc with
    | cz i x => exact absurd rfl (hcz i x)
    | czRead i b x => exact absurd rfl (hcr i b x)
    | _ => trivial
  · intro n c hc ht
    rw [e3]
    rcases Nat.lt_or_ge n s.chg.length with hn | hn
    · rw [h.ext.chgGet hn] at hc
      exact (hi.thr t).num n c hc ht
    · rw [(hent c (hlast n c hn hc)).2]
      exact Nat.le_refl _

/-- For exchanges that are no operation. -/
theorem SwapOk.grow {pc : Pc K V} (h : SwapOk hash s (s.swap code t σ last p new none pc) g t σ last p0 p new none old) :
    Grow s (s.swap code t σ last p new none pc) t := by
  refine ⟨by simp [St.swap], by simp [St.swap], ?_, ?_, ?_, ?_⟩
  · simp only [St.swap, upd_same]; exact h.le.at_
  · simp only [St.swap, upd_same]; exact h.le.ini
  · simp only [St.swap, upd_same]; exact h.le.ev
  · intro n c hn hc
    rw [h.chg', List.getElem?_append_right hn] at hc
    rcases Nat.eq_zero_or_pos (n - s.chg.length) with e | e
    · rw [e] at hc
      cases hc
    · rw [List.getElem?_eq_none (by simp only [List.length_singleton]; omega)] at hc
      cases hc

/-- The operation has taken effect. -/
theorem SwapOk.done {x : Op K V} {pc : Pc K V} (h : SwapOk hash s (s.swap code t σ last p new (some x) pc) g t σ last p0 p new (some x) old)
    {v0 : View K} (hp : Pend hash s g t x v0) {r : Option V} (hr : (dict.apply (mapOf s.chg) x).2 = r) :
    Done (s.swap code t σ last p new (some x) pc) t r := by
  refine ⟨x, v0, by simp only [St.swap, upd_same]; exact hp.job, .inr ⟨s.chg.length, ?_, fun n c hc ht hn => ?_, (hp.ok.ev _).1, ?_, ?_⟩⟩
  · simp [St.swap]
  · have hnum : ((s.swap code t σ last p new (some x) pc).thr t).num = (s.thr t).num := by simp [St.swap]
    rw [hnum] at hn
    rcases Nat.lt_trichotomy n s.chg.length with e | e | e
    · rw [h.ext.chgGet e] at hc
      exact absurd hn (hp.no n c hc ht)
    · exact e
    · rw [List.getElem?_eq_none (by rw [h.chgLen]; omega)] at hc
      cases hc
  · simp only [St.swap, upd_same, casView, View.changed, if_true]
    omega
  · rw [h.chg', mapAt_append (Nat.le_refl _), mapAt_all]
    exact hr

end

/-! ## Freezing -/

/-- The tree with a frozen word. -/
theorem Shared.freeze {m : Verif.Trie.Conc.St K V} {q : K → Option V} (hsh : Shared hash m g q) {c : Addr} {i : Fin 16} {w : Word}
    (hl : m.load (.of c i) = some w) : Shared hash (m.store (.of c i) ⟨w.p, true⟩) g q := by
  obtain ⟨fc, hfc, hfci⟩ := load_of hl
  have hload : ∀ τ, (m.store (.of c i) ⟨w.p, true⟩).load τ = if τ = .of c i then some ⟨w.p, true⟩ else m.load τ :=
    fun τ => store_load hl τ _
  have hloadI : ∀ τ v, (m.store (.of c i) ⟨w.p, true⟩).load τ = some v → ∃ v0, m.load τ = some v0 ∧ v0.p = v.p := by
    intro τ v hv
    rw [hload] at hv
    split at hv
    · rename_i he
      subst he
      cases hv
      exact ⟨w, hl, rfl⟩
    · exact ⟨v, hv, rfl⟩
  have hloadF : ∀ τ v, m.load τ = some v → ∃ v1, (m.store (.of c i) ⟨w.p, true⟩).load τ = some v1 ∧ v1.p = v.p := by
    intro τ v hv
    rw [hload]
    split
    · rename_i he
      subst he
      rw [hl] at hv
      cases hv
      exact ⟨_, rfl, rfl⟩
    · exact ⟨v, hv, rfl⟩
  have hbr : ∀ b f, m.heap b = some (.branch f) → ∃ f', (m.store (.of c i) ⟨w.p, true⟩).heap b = some (.branch f') ∧
      (∀ j, (f' j).p = (f j).p) ∧ (∀ j, (f j).pend = true → f' j = f j) := by
    intro b f hb
    refine ⟨_, store_branch hb _ _, fun j => ?_, fun j hj => ?_⟩
    · by_cases he : Slot.of b j = .of c i
      · simp only [he, if_true]
        cases he
        rw [hfc] at hb
        cases hb
        rw [hfci]
      · simp only [he, if_false]
    · by_cases he : Slot.of b j = .of c i
      · simp only [he, if_true]
        cases he
        rw [hfc] at hb
        cases hb
        rw [hfci] at hj ⊢
        cases w with | mk p q => simp only at hj; rw [hj]
      · simp only [he, if_false]
  have hbrI : ∀ b f', (m.store (.of c i) ⟨w.p, true⟩).heap b = some (.branch f') → ∃ f, m.heap b = some (.branch f) ∧
      (∀ j, (f' j).p = (f j).p) ∧ (∀ j, (f j).pend = true → f' j = f j) := by
    intro b f' hb
    cases hx : m.heap b with
    | none => rw [store_none hx] at hb; cases hb
    | some x =>
      cases x with
      | leaf l => rw [store_leaf hx] at hb; cases hb
      | branch f =>
        obtain ⟨f2, h1, h2⟩ := hbr b f hx
        rw [hb] at h1
        cases h1
        exact ⟨f, rfl, h2⟩
  have hlf : ∀ a l, m.heap a = some (.leaf l) → (m.store (.of c i) ⟨w.p, true⟩).heap a = some (.leaf l) :=
    fun a l h => store_leaf h _ _
  have hlfI : ∀ a l, (m.store (.of c i) ⟨w.p, true⟩).heap a = some (.leaf l) → m.heap a = some (.leaf l) := by
    intro a l ha
    cases hx : m.heap a with
    | none => rw [store_none hx] at ha; cases ha
    | some x =>
      cases x with
      | leaf l' => rw [store_leaf hx] at ha; exact ha
      | branch f => rw [store_branch hx] at ha; cases ha
  have hval : ∀ p k, (m.store (.of c i) ⟨w.p, true⟩).val p k = m.val p k := by
    intro p k
    cases p with
    | null => rfl
    | node _ => rfl
    | leaf a =>
      simp only [St.val, St.list]
      cases hx : m.heap a with
      | none => rw [store_none hx]
      | some x =>
        cases x with
        | leaf l => rw [store_leaf hx]
        | branch f => rw [store_branch hx]
  obtain ⟨hr, hp, ht⟩ := store_rest m (.of c i) ⟨w.p, true⟩
  refine ⟨?_, ?_, ?_, ?_, ?_, ?_, ?_, ?_, ?_, ?_, ?_, ?_, ?_, ?_, ?_⟩
  · rw [store_root]; simp only [reduceCtorEq, if_false]; exact hsh.rootPend
  · intro a
    rw [← hsh.free a]
    cases hx : m.heap a with
    | none => rw [store_none hx]
    | some x =>
      cases x with
      | leaf l => rw [store_leaf hx]
      | branch f => rw [store_branch hx]; simp
  · exact fun a ha => hsh.ne a (hlfI a _ ha)
  · intro b f' hb
    obtain ⟨f, hf, _⟩ := hbrI b f' hb
    exact hsh.depth b f hf
  · intro τ v c' hτ hv hc'
    obtain ⟨v0, h1, h2⟩ := hloadI τ v hv
    obtain ⟨h3, h4, f, h5⟩ := hsh.node τ v0 c' hτ h1 (by rw [h2]; exact hc')
    obtain ⟨f', h6, _⟩ := hbr c' f h5
    exact ⟨h3, h4, f', h6⟩
  · intro τ v a hτ hv ha
    obtain ⟨v0, h1, h2⟩ := hloadI τ v hv
    obtain ⟨h3, l, h4, h5⟩ := hsh.leaf τ v0 a hτ h1 (by rw [h2]; exact ha)
    exact ⟨h3, l, hlf a l h4, h5⟩
  · intro b f' hb hf'
    obtain ⟨f, hf, _⟩ := hbrI b f' hf'
    obtain ⟨σ, v, h1, h2, h3⟩ := hsh.up b f hb hf
    obtain ⟨v1, h4, h5⟩ := hloadF σ v h2
    exact ⟨σ, v1, h1, h4, by rw [h5]; exact h3⟩
  · intro b b' f f' hb hb' hf hf' hpa
    obtain ⟨f0, h0, _⟩ := hbrI b f hf
    obtain ⟨f0', h0', _⟩ := hbrI b' f' hf'
    exact hsh.uniq b b' f0 f0' hb hb' h0 h0' hpa
  · intro τ v k hτ hv ht ho
    obtain ⟨v0, h1, h2⟩ := hloadI τ v hv
    rw [hval, ← h2]
    exact hsh.val τ v0 k hτ h1 (by rw [h2]; exact ht) ho
  · intro b D f' hb hf' j
    obtain ⟨f, hf, _, h2⟩ := hbrI b f' hf'
    have := hsh.frozen b D f hb hf j
    rw [h2 j this]; exact this
  · intro b D f' u j c' hb hf' hu hc'
    obtain ⟨f, hf, h2, _⟩ := hbrI b f' hf'
    obtain ⟨h3, h4, f2, h5⟩ := hsh.goneN b D f u j c' hb hf hu (by rw [← h2]; exact hc')
    obtain ⟨f3, h6, _⟩ := hbr c' f2 h5
    exact ⟨h3, h4, f3, h6⟩
  · intro b D f' u j a hb hf' hu ha
    obtain ⟨f, hf, h2, _⟩ := hbrI b f' hf'
    obtain ⟨h3, l, h4⟩ := hsh.goneL b D f u j a hb hf hu (by rw [← h2]; exact ha)
    exact ⟨h3, l, hlf a l h4⟩
  · rw [hp]; exact hsh.pinned
  · rw [hr]; exact hsh.ret
  · rw [hr]; exact hsh.nodup

section
variable {c : Addr} {i : Fin 16} {last : Msg K} {pc : Pc K V}

/-- What the thread knows after it has frozen a word. -/
def frView (s : St K V) (t : Tid) (σ : Slot) (last : Msg K) : View K := ((s.thr t).view.join last.view).mark σ (s.log σ).length

def frMsg (s : St K V) (t : Tid) (σ : Slot) (last : Msg K) : Msg K := ⟨⟨last.w.p, true⟩, (frView s t σ last).join last.view, last.time⟩

structure FreezeOk (hash : K → UInt64) (s s' : St K V) (g : Gh) (t : Tid) (c : Addr) (i : Fin 16) (last : Msg K) : Prop where
  mem' : s'.mem = s.mem.store (.of c i) ⟨last.w.p, true⟩
  log' : ∀ τ, s'.log τ = if τ = .of c i then s.log τ ++ [frMsg s t (.of c i) last] else s.log τ
  chg' : s'.chg = s.chg
  hl : LOk hash s g
  vok : VOk hash s g (s.thr t).view
  kn : (s.thr t).view.ini c = true
  lst : (s.log (.of c i)).getLast? = some last

theorem FreezeOk.cases (h : FreezeOk hash s s' g t c i last) {τ : Slot} {j : Nat} {m : Msg K} (hm : (s'.log τ)[j]? = some m) :
    (τ = .of c i ∧ j = (s.log τ).length ∧ m = frMsg s t (.of c i) last) ∨ (s.log τ)[j]? = some m := by
  rw [h.log'] at hm
  split at hm
  · rename_i e
    rcases Nat.lt_or_ge j (s.log τ).length with hj | hj
    · rw [List.getElem?_append_left hj] at hm
      exact .inr hm
    · rw [List.getElem?_append_right hj] at hm
      rcases Nat.eq_zero_or_pos (j - (s.log τ).length) with e' | e'
      · rw [e'] at hm
        cases hm
        exact .inl ⟨e, by omega, rfl⟩
      · rw [List.getElem?_eq_none (by simp only [List.length_singleton]; omega)] at hm
        cases hm
  · exact .inr hm

theorem FreezeOk.stays (h : FreezeOk hash s s' g t c i last) {τ : Slot} {j : Nat} {m : Msg K} (hm : (s.log τ)[j]? = some m) :
    (s'.log τ)[j]? = some m := by
  rw [h.log']
  split
  · rw [List.getElem?_append_left (get_len hm)]; exact hm
  · exact hm

/-- For every word there is an old one with the same pointer and time that is not older than the view. -/
theorem FreezeOk.old (h : FreezeOk hash s s' g t c i last) (hv : ∀ τ, v.at_ τ ≤ (s.log τ).length - 1) {τ : Slot} {j : Nat} {m : Msg K}
    (hj : v.at_ τ ≤ j) (hm : (s'.log τ)[j]? = some m) :
    ∃ j' m', v.at_ τ ≤ j' ∧ (s.log τ)[j']? = some m' ∧ m'.w.p = m.w.p ∧ m'.time = m.time := by
  rcases h.cases hm with ⟨rfl, _, rfl⟩ | hm
  · exact ⟨_, last, hv _, last_get h.lst, rfl, rfl⟩
  · exact ⟨j, m, hj, hm, rfl, rfl⟩

theorem FreezeOk.walk (h : FreezeOk hash s s' g t c i last) (hv : ∀ τ, v.at_ τ ≤ (s.log τ).length - 1) {d : Slot} (hd : Walk s'.log v d) :
    Walk s.log v d := by
  induction hd with
  | root => exact .root
  | step i _ h1 h2 h3 ih =>
    obtain ⟨j', m', h4, h5, h6, _⟩ := h.old hv h1 h2
    exact .step i ih h4 h5 (by rw [h6]; exact h3)

theorem FreezeOk.birth (h : FreezeOk hash s s' g t c i last) (τ : Slot) : birth (s'.log τ) = birth (s.log τ) := by
  rw [h.log']
  split
  · rename_i e
    have := last_len h.lst
    rw [← e] at this
    cases hx : s.log τ with
    | nil => rw [hx] at this; simp at this
    | cons => rfl
  · rfl

theorem FreezeOk.nil (h : FreezeOk hash s s' g t c i last) {τ : Slot} (hne : s'.log τ ≠ []) : s.log τ ≠ [] := by
  rw [h.log'] at hne
  split at hne
  · rename_i e
    intro e'
    have := h.lst
    rw [← e, e'] at this
    cases this
  · exact hne

theorem FreezeOk.heap (h : FreezeOk hash s s' g t c i last) {a : Addr} (ha : s.mem.heap a ≠ none) : s'.mem.heap a ≠ none := by
  rw [h.mem']
  cases hx : s.mem.heap a with
  | none => exact absurd hx ha
  | some x =>
    cases x with
    | leaf l => rw [store_leaf hx]; simp
    | branch f => rw [store_branch hx]; simp

theorem FreezeOk.keep (h : FreezeOk hash s s' g t c i last) (hv : VOk hash s g v) : VOk hash s' g v where
  at_ τ := by
    have := hv.at_ τ
    rw [h.log']
    split
    · rw [List.length_append]; omega
    · exact this
  ini a ha := h.heap (hv.ini a ha)
  closed b j m hb hm := by
    rw [h.chg']
    rcases h.cases hm with ⟨e, e', rfl⟩ | hm
    · have := last_len h.lst
      rw [e] at e'
      omega
    · exact hv.closed b j m hb hm
  lead b i' k d j m hb hne ho hd hj hm hr := by
    rw [h.birth]
    obtain ⟨j', m', h4, h5, h6, h7⟩ := h.old hv.at_ hj hm
    rw [← h7]
    exact hv.lead b i' k d j' m' hb (h.nil hne) ho (h.walk hv.at_ hd) h4 h5 (by rw [h6]; exact hr)
  cov k d j m hd hj hm ht ho := by
    obtain ⟨j', m', h4, h5, h6, h7⟩ := h.old hv.at_ hj hm
    rw [← h7]
    exact hv.cov k d j' m' (h.walk hv.at_ hd) h4 h5 (by rw [h6]; exact ht) ho
  ev := by rw [h.chg']; exact hv.ev

theorem FreezeOk.own (h : FreezeOk hash s s' g t c i last) : VOk hash s' g (frView s t (.of c i) last) := by
  refine ((h.keep h.vok).join (h.keep (h.hl.view _ _ _ (last_get h.lst)))).mark ?_
  rw [h.log']
  simp

theorem FreezeOk.load (h : FreezeOk hash s s' g t c i last) (τ : Slot) :
    s'.mem.load τ = if τ = .of c i then some ⟨last.w.p, true⟩ else s.mem.load τ := by
  rw [h.mem']
  exact store_load (h.hl.last_word h.lst) τ _

theorem FreezeOk.newest (h : FreezeOk hash s s' g t c i last) {τ : Slot} {m : Msg K} (hm : (s'.log τ).getLast? = some m) :
    ∃ m', (s.log τ).getLast? = some m' ∧ m'.w.p = m.w.p ∧ m'.time = m.time := by
  rw [h.log'] at hm
  split at hm
  · rename_i e
    subst e
    rw [List.getLast?_concat] at hm
    cases hm
    exact ⟨last, h.lst, rfl, rfl⟩
  · exact ⟨m, hm, rfl, rfl⟩

theorem FreezeOk.leaf (h : FreezeOk hash s s' g t c i last) {a : Addr} {l : List (K × V)} (ha : s.mem.heap a = some (.leaf l)) :
    s'.mem.heap a = some (.leaf l) := by rw [h.mem']; exact store_leaf ha _ _

theorem FreezeOk.branch (h : FreezeOk hash s s' g t c i last) {b : Addr} {f : Fin 16 → Word} (hb : s.mem.heap b = some (.branch f)) :
    ∃ f', s'.mem.heap b = some (.branch f') ∧ (∀ j, (f j).pend = true → f' j = f j) := by
  refine ⟨_, by rw [h.mem']; exact store_branch hb _ _, fun j hj => ?_⟩
  by_cases e : Slot.of b j = .of c i
  · have := h.hl.last_word h.lst
    rw [← e] at this
    simp only [St.load, hb, Option.some.injEq] at this
    simp only [e, if_true]
    rw [this] at hj ⊢
    cases hw : last.w with | mk p q => rw [hw] at hj; simp only at hj; rw [hj]
  · simp only [e, if_false]

theorem FreezeOk.val (h : FreezeOk hash s s' g t c i last) {τ : Slot} {j : Nat} {m : Msg K} (hm : (s.log τ)[j]? = some m) (k : K) :
    s'.mem.val m.w.p k = s.mem.val m.w.p k := by
  cases e : m.w.p with
  | null => rfl
  | node _ => rfl
  | leaf a =>
    obtain ⟨l, hl, _⟩ := h.hl.leaf τ j m a hm e
    simp only [St.val, St.list, hl, h.leaf hl]

/-- The word that is frozen can be used. -/
theorem FreezeOk.knows (h : FreezeOk hash s s' g t c i last) (hw : VLe ((s.thr t).view.join last.view) w) :
    Knows hash s'.chg g w (.of c i) (frMsg s t (.of c i) last) := by
  have := (h.hl.use (last_get h.lst) h.vok h.kn).mono hw.ini hw.ev
  rw [h.chg']
  exact ⟨this.ini, this.ev⟩

theorem FreezeOk.lok (h : FreezeOk hash s s' g t c i last) : LOk hash s' g := by
  have hg := last_get h.lst
  refine ⟨?_, ?_, ?_, ?_, ?_, ?_, ?_, ?_, ?_, ?_, ?_, ?_⟩
  · rw [h.mem', h.chg']
    exact Shared.freeze h.hl.sh (h.hl.last_word h.lst)
  · intro τ x hx
    rw [h.load] at hx
    rw [h.log']
    split at hx
    · rename_i e
      rw [if_pos e]
      cases hx
      exact ⟨_, List.getLast?_concat, rfl⟩
    · rename_i e
      rw [if_neg e]
      exact h.hl.last τ x hx
  · intro τ hx
    rw [h.load] at hx
    rw [h.log']
    split at hx
    · cases hx
    · rename_i e
      rw [if_neg e]
      exact h.hl.noLog τ hx
  · intro τ j m b hm hb
    obtain ⟨j', m', hm', e⟩ : ∃ (j' : Nat) (m' : Msg K), (s.log τ)[j']? = some m' ∧ m'.w.p = m.w.p := by
      rcases h.cases hm with ⟨rfl, _, rfl⟩ | hm
      · exact ⟨_, last, hg, rfl⟩
      · exact ⟨j, m, hm, rfl⟩
    obtain ⟨⟨f, h1⟩, h2⟩ := h.hl.node τ j' m' b hm' (by rw [e]; exact hb)
    obtain ⟨f', h3, _⟩ := h.branch h1
    exact ⟨⟨f', h3⟩, h2⟩
  · intro τ j m a hm ha
    obtain ⟨j', m', hm', e⟩ : ∃ (j' : Nat) (m' : Msg K), (s.log τ)[j']? = some m' ∧ m'.w.p = m.w.p := by
      rcases h.cases hm with ⟨rfl, _, rfl⟩ | hm
      · exact ⟨_, last, hg, rfl⟩
      · exact ⟨j, m, hm, rfl⟩
    obtain ⟨l, h1, h2⟩ := h.hl.leaf τ j' m' a hm' (by rw [e]; exact ha)
    exact ⟨l, h.leaf h1, h2⟩
  · intro τ j m k hm ht ho
    obtain ⟨j', m', hm', e, e'⟩ : ∃ (j' : Nat) (m' : Msg K), (s.log τ)[j']? = some m' ∧ m'.w.p = m.w.p ∧ m'.time = m.time := by
      rcases h.cases hm with ⟨rfl, _, rfl⟩ | hm
      · exact ⟨_, last, hg, rfl, rfl⟩
      · exact ⟨j, m, hm, rfl, rfl⟩
    rw [h.chg', ← e', ← e, h.val hm']
    exact h.hl.val τ j' m' k hm' (by rw [e]; exact ht) ho
  · intro τ j m hm
    rw [h.chg', h.birth]
    rcases h.cases hm with ⟨rfl, _, rfl⟩ | hm
    · exact h.hl.time _ _ last hg
    · exact h.hl.time _ _ _ hm
  · intro τ j m hm
    rcases h.cases hm with ⟨rfl, _, rfl⟩ | hm
    · exact h.own.join (h.keep (h.hl.view _ _ _ hg))
    · exact h.keep (h.hl.view _ _ _ hm)
  · intro τ j m hm hj
    rcases h.cases hm with ⟨rfl, _, rfl⟩ | hm
    · exact h.knows ((VLe.mark (.of c i) _).trans VLe.join_l)
    · rw [h.chg']; exact h.hl.knows τ j m hm hj
  · intro j m hm
    rcases h.cases hm with ⟨e, _⟩ | hm
    · cases e
    · exact h.hl.rootPend j m hm
  · intro d p k e j m hd hm ho hr hb
    rw [h.load] at hd
    split at hd
    · cases hd
    · rw [h.birth] at hb
      rcases h.cases hm with ⟨rfl, _, rfl⟩ | hm
      · exact h.hl.loc d p k _ _ last hd hg ho hr hb
      · exact h.hl.loc d p k e j m hd hm ho hr hb
  · intro τ m k hτ hm ht ho
    obtain ⟨m', h1, h2, h3⟩ := h.newest hm
    rw [h.chg', ← h3]
    exact h.hl.live τ m' k hτ h1 (by rw [h2]; exact ht) ho

theorem FreezeOk.ext (h : FreezeOk hash s s' g t c i last) : Ext hash s s' g g where
  log _ _ _ hm := h.stays hm
  chg := ⟨[], by rw [h.chg']; simp⟩
  path _ _ := rfl
  leaf a l ha := h.leaf ha
  branch b f hb := h.branch hb
  vok v hv := h.keep hv
  froz τ m hm hp := by
    rw [h.log']
    split
    · rename_i e
      subst e
      rw [h.lst] at hm
      cases hm
      exact ⟨_, List.getLast?_concat, rfl, rfl⟩
    · exact ⟨m, hm, rfl, rfl⟩

theorem FreezeOk.mk' (hi : Inv hash s g) (kn : (s.thr t).view.ini c = true) (lst : (s.log (.of c i)).getLast? = some last) :
    FreezeOk hash s (s.freeze code t (.of c i) last pc) g t c i last where
  mem' := rfl
  log' τ := by
    by_cases e : τ = .of c i
    · subst e
      simp [St.freeze, logPut, frMsg, frView, code]
    · simp [St.freeze, logPut, e]
  chg' := rfl
  hl := hi.log
  vok := (hi.thr t).view
  kn := kn
  lst := lst

theorem frView_le (σ : Slot) : VLe (s.thr t).view (frView s t σ last) := VLe.join_l.trans (VLe.mark _ _)

theorem Inv.frozen (hi : Inv hash s g) (h : FreezeOk hash s (s.freeze code t (.of c i) last pc) g t c i last)
    (hok : PcOk hash (s.freeze code t (.of c i) last pc).mem (gv g (frView s t (.of c i) last)) t pc)
    (hcz : CzsV hash (s.freeze code t (.of c i) last pc) g (frView s t (.of c i) last) pc)
    (habs : WAbs hash (s.freeze code t (.of c i) last pc) g t pc) : Inv hash (s.freeze code t (.of c i) last pc) g := by
  have e1 : ((s.freeze code t (.of c i) last pc).thr t).view = frView s t (.of c i) last := by simp [St.freeze, frView, code]
  have e2 : ((s.freeze code t (.of c i) last pc).thr t).pc = pc := by simp [St.freeze]
  have e3 : ((s.freeze code t (.of c i) last pc).thr t).num = (s.thr t).num := by simp [St.freeze]
  refine hi.step t h.ext h.lok (fun u hu => by simp [St.freeze, hu]) (fun n x hn hx => ?_) ?_
  · rw [h.chg', List.getElem?_eq_none hn] at hx
    cases hx
  · refine ⟨by rw [e1]; exact h.own, by rw [e1, e2]; exact hok, by rw [e1, e2]; exact hcz, by rw [e2]; exact habs, ?_⟩
    intro n x hx ht
    rw [e3]
    exact (hi.thr t).num n x hx ht

theorem FreezeOk.grow (h : FreezeOk hash s (s.freeze code t (.of c i) last pc) g t c i last) :
    Grow s (s.freeze code t (.of c i) last pc) t := by
  have hle : VLe (s.thr t).view (frView s t (.of c i) last) := frView_le _
  refine ⟨by simp [St.freeze], by simp [St.freeze], ?_, ?_, ?_, ?_⟩
  · simp only [St.freeze, upd_same]; exact hle.at_
  · simp only [St.freeze, upd_same]; exact hle.ini
  · simp only [St.freeze, upd_same]; exact hle.ev
  · intro n x hn hx
    rw [h.chg', List.getElem?_eq_none hn] at hx
    cases hx

end

end Verif.Weak.Index
