/-
What one thread does in the primary index under weak memory keeps what the others rely on; and what a thread relies on when
only it moves.
-/
import Verif.Weak.IndexSwapLog
set_option linter.unusedSectionVars false
namespace Verif.Weak.Index
open Verif.Conc Verif.Trie Verif.Trie.Conc

variable {K V : Type} [DecidableEq K]
variable {hash : K → UInt64} {s s' : St K V} {g g' : Gh} {v w : View K} {t u : Tid} {k : K}

/-- How memory changes. -/
structure Ext (hash : K → UInt64) (s s' : St K V) (g g' : Gh) : Prop where
  log : ∀ c (j : Nat) (m : Msg K), (s.log c)[j]? = some m → (s'.log c)[j]? = some m
  chg : ∃ x, s'.chg = s.chg ++ x
  path : ∀ a, s.mem.heap a ≠ none → g'.path a = g.path a
  leaf : ∀ a l, s.mem.heap a = some (.leaf l) → s'.mem.heap a = some (.leaf l)
  branch : ∀ b f, s.mem.heap b = some (.branch f) →
    ∃ f', s'.mem.heap b = some (.branch f') ∧ ∀ i, (f i).pend = true → f' i = f i
  vok : ∀ v, VOk hash s g v → VOk hash s' g' v
  froz : ∀ σ (m : Msg K), (s.log σ).getLast? = some m → m.w.pend = true →
    ∃ m', (s'.log σ).getLast? = some m' ∧ m'.w.p = m.w.p ∧ m'.time = m.time

/-- How a thread changes: it knows more, and no operation that has taken effect is its present one. -/
structure Grow (s s' : St K V) (t : Tid) : Prop where
  job : (s'.thr t).job = (s.thr t).job
  num : (s'.thr t).num = (s.thr t).num
  at_ : ∀ σ, (s.thr t).view.at_ σ ≤ (s'.thr t).view.at_ σ
  ini : ∀ a, (s.thr t).view.ini a = true → (s'.thr t).view.ini a = true
  ev : ∀ k, (s.thr t).view.ev k ≤ (s'.thr t).view.ev k
  new : ∀ (n : Nat) c, s.chg.length ≤ n → s'.chg[n]? = some (some c) → c.t = t → c.num ≠ (s.thr t).num

theorem Ext.chgGet (h : Ext hash s s' g g') {n : Nat} (hn : n < s.chg.length) : s'.chg[n]? = s.chg[n]? := by
  obtain ⟨x, hx⟩ := h.chg
  rw [hx, List.getElem?_append_left hn]

theorem Ext.chgLen (h : Ext hash s s' g g') : s.chg.length ≤ s'.chg.length := by
  obtain ⟨x, hx⟩ := h.chg
  rw [hx, List.length_append]
  omega

theorem Ext.mapAt (h : Ext hash s s' g g') {n : Nat} (hn : n ≤ s.chg.length) : mapAt s'.chg n = mapAt s.chg n := by
  obtain ⟨x, hx⟩ := h.chg
  rw [hx, mapAt_append hn]

theorem Ext.lastChg (h : Ext hash s s' g g') {n : Nat} (hn : n ≤ s.chg.length) : lastChg s'.chg k n = lastChg s.chg k n := by
  obtain ⟨x, hx⟩ := h.chg
  rw [hx, lastChg_append hn]

theorem Ext.keeps (h : Ext hash s s' g g') (hv : VOk hash s g v) (hi : ∀ a, v.ini a = true → w.ini a = true) :
    Keeps s.mem s'.mem (gv g v) (gv g' w) t where
  safe a ha := safe_gv.2 (hi a (safe_gv.1 ha))
  path a ha := h.path a (hv.ini a (safe_gv.1 ha))
  leaf a l _ hl := h.leaf a l hl
  branch b f _ hf := h.branch b f hf

theorem Ext.val (h : Ext hash s s' g g') {a : Addr} {l : List (K × V)} (ha : s.mem.heap a = some (.leaf l)) (k : K) :
    s'.mem.val (.leaf a) k = s.mem.val (.leaf a) k := by
  simp only [St.val, St.list, ha, h.leaf a l ha]

theorem NoChg.ext (h : NoChg s t) (he : Ext hash s s' g g') (hg : Grow s s' t) : NoChg s' t := by
  intro n c hc ht
  rw [hg.num]
  rcases Nat.lt_or_ge n s.chg.length with hn | hn
  · rw [he.chgGet hn] at hc
    exact h n c hc ht
  · exact hg.new n c hn hc ht

theorem Pend.ext {op : Op K V} {v0 : View K} (h : Pend hash s g t op v0) (he : Ext hash s s' g g') (hg : Grow s s' t) :
    Pend hash s' g' t op v0 :=
  ⟨by rw [hg.job]; exact h.job, he.vok _ h.ok, fun σ => Nat.le_trans (h.le σ) (hg.at_ σ), h.no.ext he hg⟩

theorem Done.ext {r : Option V} (h : Done s t r) (he : Ext hash s s' g g') (hg : Grow s s' t) (hv : VOk hash s g (s.thr t).view) :
    Done s' t r := by
  obtain ⟨op, v0, hj, h⟩ := h
  refine ⟨op, v0, by rw [hg.job]; exact hj, ?_⟩
  have hlen : (s.thr t).view.ev (opKey op) ≤ s.chg.length := (hv.ev _).1
  rcases h with ⟨n, h⟩ | ⟨n, h⟩
  · have hn : n ≤ s.chg.length := Nat.le_trans h.hi hlen
    refine .inl ⟨n, h.no.ext he hg, h.lo, Nat.le_trans h.hi (hg.ev _), ?_⟩
    rw [he.mapAt hn]
    exact h.now
  · have hn : n < s.chg.length := Nat.lt_of_lt_of_le h.hi hlen
    refine .inr ⟨n, ?_, fun n' c hc ht hnum => ?_, h.lo, Nat.lt_of_lt_of_le h.hi (hg.ev _), ?_⟩
    · rw [he.chgGet hn, hg.num]; exact h.is
    · rw [hg.num] at hnum
      rcases Nat.lt_or_ge n' s.chg.length with hn' | hn'
      · rw [he.chgGet hn'] at hc
        exact h.only n' c hc ht hnum
      · exact absurd hnum (hg.new n' c hn' hc ht)
    · rw [he.mapAt (Nat.le_of_lt hn)]
      exact h.ans

theorem Saw.ext {v0 : View K} {x : Option V} (h : Saw s t k v0 x) (he : Ext hash s s' g g') (hg : Grow s s' t) : Saw s' t k v0 x := by
  obtain ⟨n, h1, h2, h3, h4⟩ := h
  exact ⟨n, h1, Nat.le_trans h2 (hg.ev k), Nat.le_trans h3 he.chgLen, by rw [he.mapAt h3]; exact h4⟩

theorem KAbs.ext {x : Kont K V} (h : KAbs hash s g t x) (he : Ext hash s s' g g') (hg : Grow s s' t) (hv : VOk hash s g (s.thr t).view) :
    KAbs hash s' g' t x := by
  cases x with
  | patch | del =>
    obtain ⟨v0, h⟩ := h
    exact ⟨v0, h.ext he hg⟩
  | up | ret => exact Done.ext h he hg hv

theorem WAbs.ext {pc : Pc K V} (h : WAbs hash s g t pc) (he : Ext hash s s' g g') (hg : Grow s s' t) (hv : VOk hash s g (s.thr t).view)
    (hok : PcOk hash s.mem (gv g (s.thr t).view) t pc) : WAbs hash s' g' t pc := by
  cases pc with
  | idle => trivial
  | fault | panic => exact h
  | ret | count => exact Done.ext h he hg hv
  | cz | czRead | retire => exact KAbs.ext h he hg hv
  | get | patch | patchSplit | patchPut | del | delData | delPut =>
    obtain ⟨v0, h1, h2⟩ := h
    exact ⟨v0, h1.ext he hg, h2.log he.log⟩
  | patchNew =>
    obtain ⟨⟨v0, h1, h2⟩, h3⟩ := h
    exact ⟨⟨v0, h1.ext he hg, h2.log he.log⟩, h3⟩
  | getData k a =>
    obtain ⟨v0, h1, h2⟩ := h
    obtain ⟨_, l, hl⟩ := hok
    exact ⟨v0, h1.ext he hg, by rw [he.val hl]; exact h2.ext he hg⟩
  | patchData m k v lvl cur par a =>
    obtain ⟨v0, h1, h2, h3⟩ := h
    obtain ⟨_, _, l, hl, _⟩ := hok
    exact ⟨v0, h1.ext he hg, h2.log he.log, by rw [he.val hl]; exact h3.ext he hg⟩

theorem LOk.lastOf (hl : LOk hash s g) {c : Addr} {f : Fin 16 → Word} (hc : s.mem.heap c = some (.branch f)) (j : Fin 16) :
    ∃ m, (s.log (.of c j)).getLast? = some m ∧ m.w = f j := hl.last _ _ (by simp [St.load, hc])

theorem CzV.ext {c : Addr} {i : Nat} (h : CzV hash s g v c i) (he : Ext hash s s' g g') (hl : LOk hash s g) {f : Fin 16 → Word}
    (hc : s.mem.heap c = some (.branch f)) (hf : ∀ j : Fin 16, j.val < i → (f j).pend = true)
    (hi : ∀ a, v.ini a = true → w.ini a = true) (hev : ∀ k, v.ev k ≤ w.ev k) : CzV hash s' g' w c i := by
  intro j hj m hm
  obtain ⟨m0, h1, h2⟩ := hl.lastOf hc j
  obtain ⟨m1, h3, h4, h5⟩ := he.froz _ m0 h1 (by rw [h2]; exact hf j hj)
  rw [hm] at h3
  cases h3
  have hk := h j hj m0 h1
  have ht := (hl.time _ _ _ (last_get h1)).1
  have hsl : g'.slot (.of c j) = g.slot (.of c j) := by
    show j :: g'.path c = j :: g.path c
    rw [he.path c (by rw [hc]; simp)]
  refine ⟨fun a ha => hi a (hk.ini a (by rw [← h4]; exact ha)), fun htm k ho => ?_⟩
  rw [h5, he.lastChg ht]
  rw [hsl] at ho
  exact Nat.le_trans (hk.ev (by rw [← h4]; exact htm) k ho) (hev k)

theorem CzsV.ext {pc : Pc K V} (h : CzsV hash s g v pc) (he : Ext hash s s' g g') (hl : LOk hash s g)
    (hok : PcOk hash s.mem (gv g v) t pc) (hi : ∀ a, v.ini a = true → w.ini a = true) (hev : ∀ k, v.ev k ≤ w.ev k) :
    CzsV hash s' g' w pc := by
  cases pc with
  | cz i x =>
    replace hok : CzOk s.mem (gv g v) t i x := hok
    obtain ⟨f, hf⟩ := hok.lev.br
    exact CzV.ext h he hl hf (fun j hj => by rw [hok.acc f hf j hj]) hi hev
  | czRead i b x =>
    obtain ⟨h1, _, _, hlt, h4⟩ := hok
    obtain ⟨f, hf⟩ := h1.lev.br
    refine CzV.ext h he hl hf (fun j hj => ?_) hi hev
    rcases Nat.lt_or_ge j.val i with hj' | hj'
    · rw [h1.acc f hf j hj']
    · have : j = ⟨i, hlt⟩ := Fin.ext (by simp only; omega)
      rw [this, h4 f hf]
  | _ => trivial

/-- A thread that does nothing. -/
theorem TOk.ext (h : TOk hash s g u) (he : Ext hash s s' g g') (hl : LOk hash s g) (hthr : s'.thr u = s.thr u)
    (hnew : ∀ (n : Nat) c, s.chg.length ≤ n → s'.chg[n]? = some (some c) → c.t ≠ u) : TOk hash s' g' u := by
  have hg : Grow s s' u := ⟨by rw [hthr], by rw [hthr], fun _ => by rw [hthr]; exact Nat.le_refl _, fun _ h => by rw [hthr]; exact h,
    fun _ => by rw [hthr]; exact Nat.le_refl _, fun n c hn hc ht => absurd ht (hnew n c hn hc)⟩
  refine ⟨by rw [hthr]; exact he.vok _ h.view, ?_, ?_, ?_, ?_⟩
  · rw [hthr]; exact (he.keeps h.view fun _ h => h).pcOk h.ok
  · rw [hthr]; exact h.cz.ext he hl h.ok (fun _ h => h) (fun _ => Nat.le_refl _)
  · rw [hthr]; exact h.abs.ext he hg h.view h.ok
  · intro n c hc ht
    rw [hthr]
    rcases Nat.lt_or_ge n s.chg.length with hn | hn
    · rw [he.chgGet hn] at hc
      exact h.num n c hc ht
    · exact absurd ht (hnew n c hn hc)

theorem Inv.step (hi : Inv hash s g) (t : Tid) (he : Ext hash s s' g g') (hl : LOk hash s' g') (hthr : ∀ u, u ≠ t → s'.thr u = s.thr u)
    (hnew : ∀ (n : Nat) c, s.chg.length ≤ n → s'.chg[n]? = some (some c) → c.t = t) (ht : TOk hash s' g' t) : Inv hash s' g' where
  log := hl
  thr u := by
    by_cases e : u = t
    · subst e; exact ht
    · exact (hi.thr u).ext he hi.log (hthr u e) fun n c hn hc => by rw [hnew n c hn hc]; exact Ne.symm e

/-! ## Only a thread moves -/

theorem VOk.of (h : VOk hash s g v) (h1 : s'.mem = s.mem) (h2 : s'.log = s.log) (h3 : s'.chg = s.chg) : VOk hash s' g v := by
  refine ⟨?_, ?_, ?_, ?_, ?_, ?_⟩
  · rw [h2]; exact h.at_
  · rw [h1]; exact h.ini
  · rw [h2, h3]; exact h.closed
  · rw [h2]; exact h.lead
  · rw [h2]; exact h.cov
  · rw [h3]; exact h.ev

theorem LOk.of (h : LOk hash s g) (h1 : s'.mem = s.mem) (h2 : s'.log = s.log) (h3 : s'.chg = s.chg) : LOk hash s' g := by
  refine ⟨?_, ?_, ?_, ?_, ?_, ?_, ?_, ?_, ?_, ?_, ?_, ?_⟩
  · rw [h1, h3]; exact h.sh
  · rw [h1, h2]; exact h.last
  · rw [h1, h2]; exact h.noLog
  · rw [h1, h2]; exact h.node
  · rw [h1, h2]; exact h.leaf
  · rw [h1, h2, h3]; exact h.val
  · rw [h2, h3]; exact h.time
  · rw [h2]; exact fun σ j m hm => (h.view σ j m hm).of h1 h2 h3
  · rw [h2, h3]; exact h.knows
  · rw [h2]; exact h.rootPend
  · rw [h1, h2]; exact h.loc
  · rw [h2, h3]; exact h.live

theorem Ext.of (h1 : s'.mem = s.mem) (h2 : s'.log = s.log) (h3 : s'.chg = s.chg) : Ext hash s s' g g where
  log := by rw [h2]; exact fun _ _ _ h => h
  chg := ⟨[], by rw [h3]; simp⟩
  path _ _ := rfl
  leaf := by rw [h1]; exact fun _ _ h => h
  branch := by rw [h1]; exact fun b f h => ⟨f, h, fun _ _ => rfl⟩
  vok v h := h.of h1 h2 h3
  froz := by rw [h2]; exact fun σ m h _ => ⟨m, h, rfl, rfl⟩

/-- What the view becomes. -/
structure VLe (v w : View K) : Prop where
  at_ : ∀ σ, v.at_ σ ≤ w.at_ σ
  ini : ∀ a, v.ini a = true → w.ini a = true
  ev : ∀ k, v.ev k ≤ w.ev k

theorem VLe.refl (v : View K) : VLe v v := ⟨fun _ => Nat.le_refl _, fun _ h => h, fun _ => Nat.le_refl _⟩

theorem VLe.trans {x : View K} (h : VLe v w) (h' : VLe w x) : VLe v x :=
  ⟨fun σ => Nat.le_trans (h.at_ σ) (h'.at_ σ), fun a ha => h'.ini a (h.ini a ha), fun k => Nat.le_trans (h.ev k) (h'.ev k)⟩

theorem VLe.join_l : VLe v (v.join w) := ⟨join_at_l, fun _ => join_ini_l, join_ev_l⟩
theorem VLe.join_r : VLe w (v.join w) := ⟨join_at_r, fun _ => join_ini_r, join_ev_r⟩

theorem VLe.mark (σ : Slot) (i : Nat) : VLe v (v.mark σ i) := ⟨mark_at v σ i, fun _ h => h, fun _ => Nat.le_refl _⟩

theorem Ext.move (pc : Pc K V) (v : View K) : Ext hash s (s.move t pc v) g g := .of rfl rfl rfl

theorem Grow.move (pc : Pc K V) (hv : VLe (s.thr t).view v) : Grow s (s.move t pc v) t := by
  refine ⟨by simp [St.move], by simp [St.move], ?_, ?_, ?_, ?_⟩
  · simp only [St.move, upd_same]; exact hv.at_
  · simp only [St.move, upd_same]; exact hv.ini
  · simp only [St.move, upd_same]; exact hv.ev
  · intro n c hn hc
    have : (s.move t pc v).chg = s.chg := rfl
    rw [this, List.getElem?_eq_none hn] at hc
    cases hc

/-- Only the thread moves. -/
theorem Inv.moved (hi : Inv hash s g) {pc : Pc K V} (hle : VLe (s.thr t).view v) (hv : VOk hash s g v)
    (hok : PcOk hash s.mem (gv g v) t pc) (hcz : CzsV hash s g v pc) (habs : WAbs hash (s.move t pc v) g t pc) :
    Inv hash (s.move t pc v) g := by
  have hg : Grow s (s.move t pc v) t := .move pc hle
  refine hi.step t (.move pc v) (hi.log.of rfl rfl rfl) (fun u hu => by simp [St.move, hu]) (fun n c hn hc => ?_) ?_
  · exact absurd hc (by
      have : (s.move t pc v).chg = s.chg := rfl
      rw [this, List.getElem?_eq_none hn]; simp)
  · have e1 : ((s.move t pc v).thr t).view = v := by simp [St.move]
    have e2 : ((s.move t pc v).thr t).pc = pc := by simp [St.move]
    refine ⟨by rw [e1]; exact hv.of rfl rfl rfl, by rw [e1, e2]; exact hok, by rw [e1, e2]; cases pc <;> exact hcz, by rw [e2]; exact habs, ?_⟩
    intro n c hc ht
    rw [hg.num]
    exact (hi.thr t).num n c hc ht

end Verif.Weak.Index
