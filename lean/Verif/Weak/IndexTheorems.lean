/-
The primary index under weak memory: theorems (C76).
-/
import Verif.Weak.IndexWrites
import Verif.Weak.IndexSc
import Verif.Trie.Conc.Theorems
set_option linter.unusedSectionVars false
namespace Verif.Weak.Index
open Verif.Conc Verif.Trie Verif.Trie.Conc

variable {K V : Type} [DecidableEq K]
variable {hash : K → UInt64} {s s' : St K V} {g g' : Gh} {v w : View K} {t u : Tid} {k : K} {i : Nat} {a : Addr}

theorem inv_init : Inv hash (init : St K V) ⟨fun _ => .free, fun _ => []⟩ := by
  have hlog : ∀ σ (j : Nat) m, ((init : St K V).log σ)[j]? = some m → σ = .root ∧ j = 0 ∧ m = ⟨⟨.null, false⟩, .bot, 0⟩ := by
    intro σ j m h
    cases σ with
    | of b i => cases h
    | root =>
      cases j with
      | zero => cases h; exact ⟨rfl, rfl, rfl⟩
      | succ j => simp [init] at h
  have hnull : ∀ σ (j : Nat) (m : Msg K), ((init : St K V).log σ)[j]? = some m → m.w.p = .null := by
    intro σ j m h
    rw [(hlog σ j m h).2.2]
  refine ⟨⟨(Verif.Trie.Conc.inv_init (hash := hash)).sh, ?_, ?_, ?_, ?_, ?_, ?_, ?_, ?_, ?_, ?_, ?_⟩, ?_⟩
  · intro σ x hx
    cases σ with
    | of b i => simp [St.load, init, Verif.Trie.Conc.init] at hx
    | root => cases hx; exact ⟨_, rfl, rfl⟩
  · intro σ hx
    cases σ with
    | of b i => rfl
    | root => cases hx
  · intro σ j m c hm hc
    rw [hnull σ j m hm] at hc
    cases hc
  · intro σ j m c hm hc
    rw [hnull σ j m hm] at hc
    cases hc
  · intro σ j m k hm _ _
    rw [hnull σ j m hm, (hlog σ j m hm).2.2]
    rfl
  · intro σ j m hm
    obtain ⟨rfl, rfl, rfl⟩ := hlog σ j m hm
    exact ⟨Nat.le_refl _, Nat.le_refl _⟩
  · intro σ j m hm
    rw [(hlog σ j m hm).2.2]
    exact VOk.bot
  · intro σ j m hm _
    obtain ⟨rfl, rfl, rfl⟩ := hlog σ j m hm
    exact ⟨fun a ha => (by rcases ha with ha | ha <;> cases ha), fun _ _ _ => Nat.le_refl _⟩
  · intro j m hm
    rw [(hlog _ j m hm).2.2]
  · intro c p k d j m hc hm _ _ _
    obtain ⟨rfl, _, _⟩ := hlog d j m hm
    cases c with
    | of b i => simp [St.load, init, Verif.Trie.Conc.init] at hc
    | root => rfl
  · intro σ m k _ hm _ _
    rw [(hlog σ _ m (last_get hm)).2.2]
    rfl
  · exact fun t => ⟨VOk.bot, trivial, trivial, trivial, fun n c hc => by simp [init] at hc⟩

theorem Inv.call (hi : Inv hash s g) (op : Op K V) :
    Inv hash { s with thr := upd s.thr t ⟨startPc hash op, (s.thr t).view, (s.thr t).num + 1, some (op, (s.thr t).view)⟩ } g := by
  have ht := hi.thr t
  refine hi.step t (.of rfl rfl rfl) (hi.log.of rfl rfl rfl) (fun u hu => by simp [hu]) (fun n c hn hc => ?_) ?_
  · replace hc : s.chg[n]? = some (some c) := hc
    rw [List.getElem?_eq_none hn] at hc
    cases hc
  · have hv : VOk hash { s with thr := upd s.thr t ⟨startPc hash op, (s.thr t).view, (s.thr t).num + 1, some (op, (s.thr t).view)⟩ } g
        (s.thr t).view := ht.view.of rfl rfl rfl
    have hp : Pend hash { s with thr := upd s.thr t ⟨startPc hash op, (s.thr t).view, (s.thr t).num + 1, some (op, (s.thr t).view)⟩ } g t op
        (s.thr t).view := by
      refine ⟨by simp, hv, fun σ => by simp, fun n c hc hct => ?_⟩
      have := ht.num n c hc hct
      simp only [upd_same]
      omega
    refine ⟨by simp only [upd_same]; exact hv, ?_, ?_, ?_, fun n c hc hct => ?_⟩
    · simp only [upd_same]
      cases op with
      | get k => exact ⟨trivial, trivial, fun _ => by simp [Gh.slot]⟩
      | delete k => exact ⟨⟨trivial, trivial, rfl⟩, fun x hx => (by cases hx), rfl⟩
      | insert | upsert | update => exact ⟨⟨trivial, trivial, rfl⟩, fun x hx => (by cases hx), fun _ => rfl⟩
    · simp only [upd_same]
      cases op <;> trivial
    · simp only [upd_same]
      cases op <;> exact ⟨_, hp, .root⟩
    · have := ht.num n c hc hct
      simp only [upd_same]
      omega

theorem Inv.exec (hi : Inv hash s g) {x : Act K V} (h : exec code hash s x = some s') : ∃ g', Inv hash s' g' := by
  cases x with
  | go t i a => exact hi.go h
  | call t op =>
    simp only [Index.exec] at h
    split at h
    · cases h
      exact ⟨g, hi.call op⟩
    · cases h
  | sync t u =>
    simp only [Index.exec, Option.some.injEq] at h
    subst h
    have ht := hi.thr t
    have hle : VLe (s.thr t).view ((s.thr t).view.join (s.thr u).view) := VLe.join_l
    have hk : Keeps s.mem s.mem (gv g (s.thr t).view) (gv g ((s.thr t).view.join (s.thr u).view)) t :=
      (Ext.of (s' := s) rfl rfl rfl).keeps ht.view hle.ini
    exact ⟨g, hi.moved hle (ht.view.join (hi.thr u).view) (hk.pcOk ht.ok)
      (ht.cz.ext (Ext.of (s' := s) rfl rfl rfl) hi.log ht.ok hle.ini hle.ev) (ht.abs.ext (.move _ _) (.move _ hle) ht.view ht.ok)⟩

theorem Inv.run {s' : St K V} : ∀ {xs : List (Act K V)} {s : St K V} {g : Gh}, Inv hash s g → run code hash s xs = some s' → ∃ g', Inv hash s' g'
  | [], _, g, hi, h => by cases h; exact ⟨g, hi⟩
  | x :: xs, s, g, hi, h => by
    simp only [Index.run] at h
    split at h
    · cases h
    · rename_i s1 h1
      obtain ⟨g1, hi1⟩ := hi.exec h1
      exact Inv.run hi1 h

/-! ## What a step does to views and changes -/

theorem access_view (hi : Inv hash s g) {x : Step K V} (h : s.access code t i a x = some s') : VLe (s.thr u).view (s'.thr u).view := by
  have hmove : ∀ pc v, VLe (s.thr t).view v → VLe (s.thr u).view ((s.move t pc v).thr u).view := by
    intro pc v hv
    by_cases e : u = t
    · subst e; simp only [St.move, upd_same]; exact hv
    · simp only [St.move, upd_other _ _ e]; exact .refl _
  cases x with
  | stop => cases h
  | go pc => cases h; exact hmove _ _ (.refl _)
  | read b f =>
    simp only [St.access] at h
    split at h
    · split at h <;> cases h <;> exact hmove _ _ (.refl _)
    · cases h; exact hmove _ _ (.refl _)
  | load σ acq f =>
    simp only [St.access] at h
    split at h
    · split at h
      · split at h
        · cases h
        · cases h
          refine hmove _ _ ?_
          split
          · exact VLe.join_l.trans (VLe.mark _ _)
          · exact VLe.mark _ _
      · cases h
    · cases h; exact hmove _ _ (.refl _)
  | freeze σ f =>
    simp only [St.access] at h
    split at h
    · split at h
      · cases h; exact hmove _ _ (.refl _)
      · cases h
        by_cases e : u = t
        · subst e
          simp only [St.freeze, upd_same]
          exact VLe.join_l.trans (VLe.mark _ _)
        · simp only [St.freeze, upd_other _ _ e]; exact .refl _
    · cases h; exact hmove _ _ (.refl _)
  | cas σ p x op ok bad =>
    simp only [St.access] at h
    split at h
    · split at h
      · split at h
        · cases h
        · split at h
          · split at h
            · cases h
              by_cases e : u = t
              · subst e
                simp only [St.swap, upd_same]
                cases op with
                | none => exact VLe.mark _ _
                | some y =>
                  refine ⟨mark_at _ _ _, fun _ h => h, fun k => ?_⟩
                  simp only [casView, View.changed]
                  split
                  · exact Nat.le_succ_of_le ((hi.thr u).view.ev k).1
                  · exact Nat.le_refl _
              · simp only [St.swap, upd_other _ _ e]; exact .refl _
            · cases h
          · cases h; exact hmove _ _ (VLe.mark _ _)
      · cases h
    · cases h; exact hmove _ _ (.refl _)

theorem exec_view (hi : Inv hash s g) {x : Act K V} (h : exec code hash s x = some s') (u : Tid) : VLe (s.thr u).view (s'.thr u).view := by
  cases x with
  | go t i a => exact access_view hi h
  | call t op =>
    simp only [exec] at h
    split at h
    · cases h
      by_cases e : u = t
      · subst e; simp only [upd_same]; exact .refl _
      · simp only [upd_other _ _ e]; exact .refl _
    · cases h
  | sync t u' =>
    simp only [exec, Option.some.injEq] at h
    subst h
    by_cases e : u = t
    · subst e; simp only [St.move, upd_same]; exact .join_l
    · simp only [St.move, upd_other _ _ e]; exact .refl _

theorem run_view {s' : St K V} (u : Tid) : ∀ {xs : List (Act K V)} {s : St K V} {g : Gh}, Inv hash s g → run code hash s xs = some s' →
    VLe (s.thr u).view (s'.thr u).view
  | [], _, _, _, h => by cases h; exact .refl _
  | x :: xs, s, g, hi, h => by
    simp only [run] at h
    split at h
    · cases h
    · rename_i s1 h1
      obtain ⟨g1, hi1⟩ := hi.exec h1
      exact (exec_view hi h1 u).trans (run_view u hi1 h)

/-- Only exchanges change the list of changes, and what they add is the pending operation of their thread. -/
theorem exec_chg (hi : Inv hash s g) {x : Act K V} (h : exec code hash s x = some s') :
    s'.chg = s.chg ∨ ∃ y, s'.chg = s.chg ++ [y] ∧ ∀ c, y = some c → c.num = (s.thr c.t).num ∧ NoChg s c.t := by
  cases x with
  | call t op =>
    simp only [exec] at h
    split at h
    · cases h; exact .inl rfl
    · cases h
  | sync t u => cases h; exact .inl rfl
  | go t i a =>
    simp only [exec] at h
    have habs := (hi.thr t).abs
    have hno : ∀ σ p (x : New K V) op ok bad, prog hash (s.thr t).pc = .cas σ p x (some op) ok bad → NoChg s t := by
      intro σ p x op ok bad hp
      cases hpc : (s.thr t).pc with
      | patchNew =>
        rw [hpc] at habs
        obtain ⟨⟨v0, h, _⟩, _⟩ := habs
        exact h.no
      | patchPut | delPut =>
        rw [hpc] at habs
        obtain ⟨v0, h, _⟩ := habs
        exact h.no
      | cz j x => rw [hpc] at hp; simp only [prog] at hp; split at hp <;> cases hp
      | count => rw [hpc] at hp; simp only [prog] at hp; split at hp <;> (try split at hp) <;> cases hp
      | czRead => rw [hpc] at hp; simp only [prog] at hp; split at hp <;> cases hp
      | _ => rw [hpc] at hp; cases hp
    cases hp : prog hash (s.thr t).pc with
    | stop => rw [hp] at h; cases h
    | go pc => rw [hp] at h; cases h; exact .inl rfl
    | read b f =>
      rw [hp] at h
      simp only [St.access] at h
      split at h
      · split at h <;> cases h <;> exact .inl rfl
      · cases h; exact .inl rfl
    | load σ acq f =>
      rw [hp] at h
      simp only [St.access] at h
      split at h
      · split at h
        · split at h <;> cases h
          exact .inl rfl
        · cases h
      · cases h; exact .inl rfl
    | freeze σ f =>
      rw [hp] at h
      simp only [St.access] at h
      split at h
      · split at h <;> cases h <;> exact .inl rfl
      · cases h; exact .inl rfl
    | cas σ p x op ok bad =>
      rw [hp] at h
      simp only [St.access] at h
      split at h
      · split at h
        · split at h
          · cases h
          · split at h
            · split at h
              · cases h
                refine .inr ⟨_, rfl, fun c hc => ?_⟩
                cases op with
                | none => cases hc
                | some op => cases hc; exact ⟨rfl, hno _ _ _ _ _ _ hp⟩
              · cases h
            · cases h; exact .inl rfl
        · cases h
      · cases h; exact .inl rfl

theorem run_chg {s' : St K V} : ∀ {xs : List (Act K V)} {s : St K V} {g : Gh}, Inv hash s g → run code hash s xs = some s' → ∃ l, s'.chg = s.chg ++ l
  | [], _, _, _, h => by cases h; exact ⟨[], by simp⟩
  | x :: xs, s, g, hi, h => by
    simp only [run] at h
    split at h
    · cases h
    · rename_i s1 h1
      obtain ⟨g1, hi1⟩ := hi.exec h1
      obtain ⟨l, hl⟩ := run_chg hi1 h
      rcases exec_chg hi h1 with e | ⟨y, e, _⟩
      · exact ⟨l, by rw [hl, e]⟩
      · exact ⟨y :: l, by rw [hl, e]; simp⟩

/-- No call is in the list twice. -/
def Once (chg : List (Option (Chg K V))) : Prop :=
  ∀ (n n' : Nat) (c c' : Chg K V), chg[n]? = some (some c) → chg[n']? = some (some c') → c.t = c'.t → c.num = c'.num → n = n'

theorem once_exec (hi : Inv hash s g) (ho : Once s.chg) {x : Act K V} (h : exec code hash s x = some s') : Once s'.chg := by
  rcases exec_chg hi h with e | ⟨y, e, hy⟩
  · rw [e]; exact ho
  · intro n n' c c' hc hc' ht hn
    rw [e] at hc hc'
    have key : ∀ (n : Nat) (c : Chg K V), (s.chg ++ [y])[n]? = some (some c) → (s.chg[n]? = some (some c)) ∨ (n = s.chg.length ∧ y = some c) := by
      intro n c hc
      rcases Nat.lt_or_ge n s.chg.length with h | h
      · rw [List.getElem?_append_left h] at hc
        exact .inl hc
      · rw [List.getElem?_append_right h] at hc
        rcases Nat.eq_zero_or_pos (n - s.chg.length) with e | e
        · rw [e] at hc
          exact .inr ⟨by omega, Option.some.inj hc⟩
        · rw [List.getElem?_eq_none (by simp only [List.length_singleton]; omega)] at hc
          cases hc
    rcases key n c hc with h1 | ⟨h1, h1'⟩ <;> rcases key n' c' hc' with h2 | ⟨h2, h2'⟩
    · exact ho n n' c c' h1 h2 ht hn
    · obtain ⟨h3, h4⟩ := hy c' h2'
      exact absurd (hn.trans h3) (h4 n c h1 ht)
    · obtain ⟨h3, h4⟩ := hy c h1'
      exact absurd (hn.symm.trans h3) (h4 n' c' h2 ht.symm)
    · omega

theorem once_run {s' : St K V} : ∀ {xs : List (Act K V)} {s : St K V} {g : Gh}, Inv hash s g → Once s.chg → run code hash s xs = some s' → Once s'.chg
  | [], _, _, _, ho, h => by cases h; exact ho
  | x :: xs, s, g, hi, ho, h => by
    simp only [run] at h
    split at h
    · cases h
    · rename_i s1 h1
      obtain ⟨g1, hi1⟩ := hi.exec h1
      exact once_run hi1 (once_exec hi ho h1) h

/-! ## C76 -/

/-- **C76.** With the orderings of the code, in every execution that the memory model allows, no thread reads a node whose
initialisation does not happen before, and none of the `unwrap`s, indexings and pushes on the way fails. -/
theorem C76_no_race {xs : List (Act K V)} (h : run code hash init xs = some s) (t : Tid) :
    (s.thr t).pc ≠ .fault ∧ (s.thr t).pc ≠ .panic := by
  obtain ⟨g, hi⟩ := inv_init.run h
  have := (hi.thr t).ok
  constructor <;> intro e <;> rw [e] at this <;> exact this

/-- The present call of `t` is the operation `op`, which answers `r` as the map does that has had the first `n` changes; `c`: it
is itself the next change, otherwise it is none and would change nothing. -/
def Answers (s : St K V) (t : Tid) (op : Op K V) (r : Option V) (n : Nat) : Bool → Prop
  | true => (dict.apply (mapAt s.chg n) op).2 = r ∧ ∀ (j : Nat) x, s.chg[j]? = some (some x) →
      ((x.t = t ∧ x.num = (s.thr t).num) ↔ j = n) ∧ (j = n → x.op = op)
  | false => dict.apply (mapAt s.chg n) op = (mapAt s.chg n, r) ∧ ∀ (j : Nat) x, s.chg[j]? = some (some x) → x.t = t → x.num ≠ (s.thr t).num

/-- **C76.** Whatever a call answers is what the map answers at some moment `n` (the changes of all threads are in one order); a
call that changes something is one change, at that moment. The moment is not before any change of the key that happened
before the call (`v0` is what was known then); and it happened before all that the thread does next. -/
theorem C76_answer {xs : List (Act K V)} (h : run code hash init xs = some s) {t : Tid} {r : Option V} (hr : (s.thr t).pc = .ret r) :
    ∃ op v0 n c, (s.thr t).job = some (op, v0) ∧ Answers s t op r n c ∧ v0.ev (opKey op) ≤ n ∧
      n + c.toNat ≤ (s.thr t).view.ev (opKey op) ∧ n + c.toNat ≤ s.chg.length := by
  obtain ⟨g, hi⟩ := inv_init.run h
  have habs := (hi.thr t).abs
  rw [hr] at habs
  obtain ⟨op, v0, hj, h⟩ := habs
  have hev := ((hi.thr t).view.ev (opKey op)).1
  rcases h with ⟨n, h⟩ | ⟨n, h⟩
  · exact ⟨op, v0, n, false, hj, ⟨h.now, h.no⟩, h.lo, h.hi, Nat.le_trans h.hi hev⟩
  · have hn : n + 1 ≤ s.chg.length := Nat.le_trans h.hi hev
    refine ⟨op, v0, n, true, hj, ⟨h.ans, fun j x hx => ⟨⟨fun hc => h.only j x hx hc.1 hc.2, fun e => ?_⟩, fun e => ?_⟩⟩, h.lo, h.hi, hn⟩
    · subst e
      rw [h.is] at hx
      cases hx
      exact ⟨rfl, rfl⟩
    · subst e
      rw [h.is] at hx
      cases hx
      rfl

/-- **C76.** Every call changes the map at most once, and what changes it is a call: its operation. -/
theorem C76_once {xs : List (Act K V)} (h : run code hash init xs = some s) : Once s.chg :=
  once_run inv_init (fun n n' c c' hc => by simp [init] at hc) h

/-- **C76.** What is known at a call is what is known to the thread; and what a thread knows it knows ever after. -/
theorem C76_call {xs ys : List (Act K V)} (h : run code hash init xs = some s) {t : Tid} {op : Op K V} {s1 s2 : St K V}
    (hc : exec code hash s (.call t op) = some s1) (hr : run code hash s1 ys = some s2) :
    (s1.thr t).job = some (op, (s.thr t).view) ∧ ∀ u, VLe (s.thr u).view (s2.thr u).view := by
  obtain ⟨g, hi⟩ := inv_init.run h
  obtain ⟨g1, hi1⟩ := hi.exec hc
  refine ⟨?_, fun u => (exec_view hi hc u).trans (run_view u hi1 hr)⟩
  simp only [exec] at hc
  split at hc
  · cases hc; simp
  · cases hc

/-- **C76.** What synchronises makes known. -/
theorem C76_sync (s : St K V) (t u : Tid) : ∃ s', exec code hash s (.sync t u) = some s' ∧
    VLe (s.thr t).view (s'.thr t).view ∧ VLe (s.thr u).view (s'.thr t).view :=
  ⟨_, rfl, by simp only [St.move, upd_same]; exact .join_l, by simp only [St.move, upd_same]; exact .join_r⟩

/-- The job of a thread stays until it calls again. -/
theorem run_job (u : Tid) : ∀ {xs : List (Act K V)} {s s' : St K V}, (∀ op, Act.call u op ∉ xs) → run code hash s xs = some s' →
    (s'.thr u).job = (s.thr u).job
  | [], s, s', _, h => by cases h; rfl
  | x :: xs, s, s', hx, h => by
    simp only [run] at h
    split at h
    · cases h
    · rename_i s1 h1
      rw [run_job u (fun op ho => hx op (List.mem_cons_of_mem _ ho)) h]
      have hmove : ∀ t pc v, ((s.move t pc v).thr u).job = (s.thr u).job := by
        intro t pc v
        by_cases e : u = t
        · subst e; simp [St.move]
        · simp [St.move, e]
      cases x with
      | call t op =>
        have hne : u ≠ t := by rintro rfl; exact hx op (List.mem_cons_self ..)
        simp only [exec] at h1
        split at h1
        · cases h1; simp [hne]
        · cases h1
      | sync t u' => cases h1; exact hmove _ _ _
      | go t i a =>
        simp only [exec] at h1
        cases hp : prog hash (s.thr t).pc with
        | stop => rw [hp] at h1; cases h1
        | go pc => rw [hp] at h1; cases h1; exact hmove _ _ _
        | read b f =>
          rw [hp] at h1
          simp only [St.access] at h1
          split at h1
          · split at h1 <;> cases h1 <;> exact hmove _ _ _
          · cases h1; exact hmove _ _ _
        | load σ acq f =>
          rw [hp] at h1
          simp only [St.access] at h1
          split at h1
          · split at h1
            · split at h1 <;> cases h1
              exact hmove _ _ _
            · cases h1
          · cases h1; exact hmove _ _ _
        | freeze σ f =>
          rw [hp] at h1
          simp only [St.access] at h1
          split at h1
          · split at h1
            · cases h1; exact hmove _ _ _
            · cases h1
              by_cases e : u = t
              · subst e; simp [St.freeze]
              · simp [St.freeze, e]
          · cases h1; exact hmove _ _ _
        | cas σ p x op ok bad =>
          rw [hp] at h1
          simp only [St.access] at h1
          split at h1
          · split at h1
            · split at h1
              · cases h1
              · split at h1
                · split at h1
                  · cases h1
                    by_cases e : u = t
                    · subst e; simp [St.swap]
                    · simp [St.swap, e]
                  · cases h1
                · cases h1; exact hmove _ _ _
            · cases h1
          · cases h1; exact hmove _ _ _

/-- **C76.** Calls on one key that happen one before the other are in this order. Thread `t` has answered `op1` (in `s1`); it happened
before what `u` does in `s2`, because `u` is `t` or was told; then `u` calls `op2` and answers (in `s3`). The moment of `op2` is
not before that of `op1`, and sees the change if `op1` made one. -/
theorem C76_happens_before {xs ys zs : List (Act K V)} {s1 s2 s2' s3 : St K V} {t u : Tid} {op1 op2 : Op K V} {v1 : View K} {r1 r2 : Option V}
    (h1 : run code hash init xs = some s1) (ht : (s1.thr t).pc = .ret r1) (hj : (s1.thr t).job = some (op1, v1))
    (h2 : run code hash s1 ys = some s2) (hu : u = t ∨ VLe (s1.thr t).view (s2.thr u).view) (hc : exec code hash s2 (.call u op2) = some s2')
    (h3 : run code hash s2' zs = some s3) (hz : ∀ op, Act.call u op ∉ zs) (hr : (s3.thr u).pc = .ret r2) (hk : opKey op1 = opKey op2) :
    ∃ n1 c1 n2 c2, Answers s1 t op1 r1 n1 c1 ∧ Answers s3 u op2 r2 n2 c2 ∧ n1 + c1.toNat ≤ n2 := by
  obtain ⟨op, v0, n1, c1, hj', ha, _, hhi, _⟩ := C76_answer h1 ht
  rw [hj] at hj'
  cases hj'
  obtain ⟨g1, hi1⟩ := inv_init.run h1
  have hu : VLe (s1.thr t).view (s2.thr u).view := by
    rcases hu with rfl | hu
    · exact run_view u hi1 h2
    · exact hu
  have hrun : run code hash init (xs ++ (ys ++ (.call u op2 :: zs))) = some s3 := by
    have happ : ∀ {as bs : List (Act K V)} {a b : St K V}, run code hash a as = some b → run code hash a (as ++ bs) = run code hash b bs := by
      intro as
      induction as with
      | nil => intro bs a b h; cases h; rfl
      | cons x as ih =>
        intro bs a b h
        simp only [run, List.cons_append] at h ⊢
        split at h
        · cases h
        · exact ih h
    rw [happ h1, happ h2]
    simp only [run, hc]
    exact h3
  obtain ⟨op, v0, n2, c2, hj2, ha2, hlo, _, _⟩ := C76_answer hrun hr
  have hjob : (s3.thr u).job = some (op2, (s2.thr u).view) := by
    rw [run_job u hz h3]
    simp only [exec] at hc
    split at hc
    · cases hc; simp
    · cases hc
  rw [hjob] at hj2
  cases hj2
  refine ⟨n1, c1, n2, c2, ha, ha2, Nat.le_trans hhi (Nat.le_trans (hu.ev _) ?_)⟩
  rw [hk]
  exact hlo

/-! ## Runs -/

/-- What a thread has answered. -/
def answer (o : Ords) (xs : List (Act UInt64 Nat)) (t : Tid) : Option (Option Nat) :=
  match run o id init xs with
  | some s => match (s.thr t).pc with | .ret r => some r | _ => none
  | none => none

def possible (o : Ords) (xs : List (Act UInt64 Nat)) : Bool := (run o id init xs).isSome

def faults (o : Ords) (xs : List (Act UInt64 Nat)) (t : Tid) : Bool :=
  match run o id init xs with
  | some s => match (s.thr t).pc with | .fault => true | _ => false
  | none => false

/-- The newest word of the place that is next. -/
def latest (s : St UInt64 Nat) (t : Tid) : Nat :=
  match prog id (s.thr t).pc with
  | .load σ _ _ => (s.log σ).length - 1
  | .cas σ _ _ _ _ _ => (s.log σ).length - 1
  | _ => 0

/-- For the examples: at most `n` steps of `t`, all with the newest words, up to its answer; new nodes get addresses from `a` on. -/
def solo (o : Ords) (t : Tid) : Nat → Addr → St UInt64 Nat → List (Act UInt64 Nat)
  | 0, _, _ => []
  | n + 1, a, s =>
    match (s.thr t).pc with
    | .ret _ => []
    | _ =>
      match exec o id s (.go t (latest s t) a) with
      | some s' => .go t (latest s t) a :: solo o t n (a + 1) s'
      | none => []

/-- The acts `xs`, then the call of `op` by `t` alone. -/
def andThen (o : Ords) (xs : List (Act UInt64 Nat)) (t : Tid) (op : Op UInt64 Nat) (a : Addr) : List (Act UInt64 Nat) :=
  match run o id init (xs ++ [.call t op]) with
  | some s => xs ++ [.call t op] ++ solo o t 60 a s
  | none => xs

/-- Thread 0 puts in the key 0, which is a list at the root. -/
def one : List (Act UInt64 Nat) := [.call 0 (.insert 0 10), .go 0 0 0, .go 0 0 7]

/-- And then the key 1, which is in another place of the branch that it makes. -/
def two : List (Act UInt64 Nat) := andThen code (one ++ [.go 0 0 0]) 0 (.insert 1 11) 8

/-- Thread 1 removes the key 0, which leaves one list in the branch: it is put in place of the branch. -/
def shrunk : List (Act UInt64 Nat) := andThen code two 1 (.delete 0) 20

example : answer code one 0 = some none ∧ answer code two 0 = some none ∧ answer code shrunk 1 = some (some 10) := by
  constructor <;> decide +kernel

/-- The branch was made and is gone, the list of key 1 is at the root. -/
example : (run code id init two).map (fun s => s.mem.root.p) = some (.node 10) ∧
    (run code id init shrunk).map (fun s => s.mem.root.p) = some (.leaf 13) := by
  constructor <;> decide +kernel

/-- The changes: two insertions and a removal. The exchanges for the branch are none. -/
example : (run code id init shrunk).map (fun s => s.chg.map (·.map fun c => (c.t, c.num))) =
    some [some (0, 1), none, some (0, 2), some (1, 1), none] := by decide +kernel

/-- **C76.** A thread that nothing told of the insertion may miss it although it is over; one that was told may not, and finds it. -/
theorem C76_stale : answer code (one ++ [.call 1 (.get 0), .go 1 0 0]) 1 = some none ∧
    answer code (one ++ [.sync 1 0, .call 1 (.get 0), .go 1 1 0, .go 1 0 0]) 1 = some (some 10) ∧
    possible code (one ++ [.sync 1 0, .call 1 (.get 0)]) = true ∧
    possible code (one ++ [.sync 1 0, .call 1 (.get 0), .go 1 0 0]) = false := by
  constructor <;> decide +kernel

/-- **C76.** `ld_acq` must acquire and `cx_rel` must release: otherwise the node is read before its initialisation. -/
theorem C76_orderings_needed : faults { code with ldAcq := false } (one ++ [.call 1 (.get 0), .go 1 1 0, .go 1 0 0]) 1 = true ∧
    faults { code with cxRel := false } (one ++ [.call 1 (.get 0), .go 1 1 0, .go 1 0 0]) 1 = true := by
  constructor <;> decide +kernel

/-- **C76.** The `fetch_or` of `compress` must acquire: the list in the branch that is dissolved is that of another thread, and the
count before was taken with relaxed loads. -/
theorem C76_or_needed : faults { code with orAcq := false } (andThen { code with orAcq := false } two 1 (.delete 0) 20) 1 = true := by
  decide +kernel

/-- The premises of `C76_happens_before` can be met: thread 0 inserts, thread 1 is told and reads. -/
example : ∃ s1 s2 s2' s3, run code id init one = some s1 ∧ (s1.thr 0).pc = .ret none ∧
    run code id s1 [.sync 1 0] = some s2 ∧ VLe (s1.thr 0).view (s2.thr 1).view ∧
    exec code id s2 (.call 1 (.get 0)) = some s2' ∧ run code id s2' [.go 1 1 0, .go 1 0 0] = some s3 ∧ (s3.thr 1).pc = .ret (some 10) := by
  refine ⟨_, _, _, _, rfl, rfl, rfl, ?_, rfl, rfl, rfl⟩
  obtain ⟨s', h, _, h2⟩ := C76_sync (hash := id) (V := Nat) ((run code id init one).get (by decide +kernel)) 1 0
  cases h
  exact h2

end Verif.Weak.Index
