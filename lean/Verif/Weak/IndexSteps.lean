/-
Every access of every thread keeps the invariant of the primary index under weak memory.
-/
import Verif.Weak.IndexFreeze
set_option linter.unusedSectionVars false
namespace Verif.Weak.Index
open Verif.Conc Verif.Trie Verif.Trie.Conc

variable {K V : Type} [DecidableEq K]
variable {hash : K → UInt64} {s s' : St K V} {g g' : Gh} {v w : View K} {t u : Tid} {k : K} {i : Nat} {a : Addr}

theorem opFor_eq (m : WMode) (k : K) (v : V) : opFor m k v = opOf m k v := by cases m <;> rfl

theorem opKey_opOf (m : WMode) (k : K) (v : V) : opKey (opOf m k v) = k := by cases m <;> rfl

/-! ## The accesses -/

theorem knows_of {σ : Slot} {m : Verif.Trie.Conc.St K V} (h : SlotOk m (gv g v) t σ) : v.knows σ = true := by
  cases σ with
  | root => rfl
  | of b j => exact safe_gv.1 h.1

/-- What a thread knows after a load with acquire. -/
def ldView (s : St K V) (t : Tid) (σ : Slot) (i : Nat) (m : Msg K) : View K := ((s.thr t).view.join m.view).mark σ i

structure Ld (hash : K → UInt64) (s : St K V) (g : Gh) (t : Tid) (σ : Slot) (i : Nat) (m : Msg K) : Prop where
  at_ : (s.thr t).view.at_ σ ≤ i
  get : (s.log σ)[i]? = some m
  le : VLe (s.thr t).view (ldView s t σ i m)
  ok : VOk hash s g (ldView s t σ i m)
  knows : Knows hash s.chg g (ldView s t σ i m) σ m

theorem Inv.load (hi : Inv hash s g) {σ : Slot} {f : Word → Pc K V} (hk : (s.thr t).view.knows σ = true)
    (hg : s.access code t i a (.load σ true f) = some s') :
    ∃ m, Ld hash s g t σ i m ∧ s' = s.move t (f m.w) (ldView s t σ i m) := by
  simp only [St.access, hk, if_true] at hg
  split at hg
  · rename_i hat
    cases hm : (s.log σ)[i]? with
    | none => simp only [hm] at hg; cases hg
    | some m =>
      simp only [hm, code, Bool.and_self, if_true, Option.some.injEq] at hg
      refine ⟨m, ⟨hat, hm, VLe.join_l.trans (VLe.mark _ _), ?_, ?_⟩, hg.symm⟩
      · exact ((hi.thr t).view.join (hi.log.view _ _ _ hm)).mark (by have := get_len hm; omega)
      · exact (hi.log.use hm (hi.thr t).view hk).mono (fun _ h => h) (fun _ => Nat.le_refl _)
  · cases hg

variable {σ : Slot} {m : Msg K}

/-- The words that a load may find have what the key was at some moment since the operation began. -/
theorem Ld.saw (h : Ld hash s g t σ i m) (hl : LOk hash s g) {op : Op K V} {v0 : View K} (hp : Pend hash s g t op v0)
    (hw : Walk s.log v0 σ) (ho : OnP (hash k) (g.slot σ)) (ht : m.w.p.term) (pc : Pc K V) :
    Saw (s.move t pc (ldView s t σ i m)) t k v0 (s.mem.val m.w.p k) := by
  have htime := (hl.time _ _ _ h.get).1
  refine ⟨lastChg s.chg k m.time, ?_, ?_, Nat.le_trans (lastChg_le _) htime, ?_⟩
  · rw [← (hp.ok.ev k).2]
    exact lastChg_mono (hp.ok.cov k σ i m hw (Nat.le_trans (hp.le σ) h.at_) h.get ht ho)
  · simp only [St.move, upd_same]
    exact h.knows.ev ht k ho
  · show mapAt s.chg (lastChg s.chg k m.time) k = _
    rw [mapAt_last htime]
    exact hl.val σ i m k h.get ht ho

theorem Ld.leafAt (h : Ld hash s g t σ i m) (hl : LOk hash s g) {b : Addr} (hb : m.w.p = .leaf b) :
    LeafAt hash s.mem (gv g (ldView s t σ i m)) t σ b := by
  obtain ⟨l, h1, h2⟩ := hl.leaf σ i m b h.get hb
  exact ⟨safe_gv.2 (h.knows.ini b (.inl hb)), l, h1, by rw [slot_gv]; exact h2⟩

theorem SlotOk.grow {m : Verif.Trie.Conc.St K V} {τ : Slot} (h : SlotOk m (gv g v) t τ) (hle : VLe v w) : SlotOk m (gv g w) t τ := by
  cases τ with
  | root => trivial
  | of b j => exact ⟨safe_gv.2 (hle.ini b (safe_gv.1 h.1)), h.2⟩

/-- One level down. -/
theorem Ld.down (h : Ld hash s g t σ i m) (hl : LOk hash s g) {b : Addr} (hb : m.w.p = .node b)
    (hσ : SlotOk s.mem (gv g (s.thr t).view) t σ) (ho : OnP (hash k) (g.slot σ)) :
    SlotOk s.mem (gv g (ldView s t σ i m)) t (.of b (chunk (hash k) (LG * (g.slot σ).length))) ∧
      OnP (hash k) (g.slot (.of b (chunk (hash k) (LG * (g.slot σ).length)))) ∧
      (g.slot (.of b (chunk (hash k) (LG * (g.slot σ).length)))).length = (g.slot σ).length + 1 ∧
      (g.slot σ).length ≤ 15 ∧ LevOk s.mem (gv g (ldView s t σ i m)) t (σ, b) := by
  obtain ⟨⟨f, h1⟩, h2⟩ := hl.node σ i m b h.get hb
  have hsl : ∀ j, g.slot (.of b j) = j :: g.slot σ := fun j => by show j :: g.path b = _; rw [h2]
  have hd := hl.sh.depth b f h1
  have hsafe : Safe (gv g (ldView s t σ i m)) t b := safe_gv.2 (h.knows.ini b (.inr hb))
  rw [h2] at hd
  refine ⟨⟨hsafe, f, h1⟩, by rw [hsl]; exact ⟨rfl, ho⟩, by rw [hsl]; rfl, hd, SlotOk.grow hσ h.le, hsafe, ?_, f, h1⟩
  rw [slot_gv]
  exact h2

theorem Ld.walk (h : Ld hash s g t σ i m) {op : Op K V} {v0 : View K} (hp : Pend hash s g t op v0) (hw : Walk s.log v0 σ) {b : Addr}
    (hb : m.w.p = .node b) (j : Fin 16) : Walk s.log v0 (.of b j) := .step j hw (Nat.le_trans (hp.le σ) h.at_) h.get hb

theorem Ld.keeps (h : Ld hash s g t σ i m) (hv : VOk hash s g (s.thr t).view) :
    Keeps s.mem s.mem (gv g (s.thr t).view) (gv g (ldView s t σ i m)) t := (Ext.of (s' := s) rfl rfl rfl).keeps hv h.le.ini

/-- The thread is still at its operation. -/
theorem Pend.move {op : Op K V} {v0 : View K} (h : Pend hash s g t op v0) (pc : Pc K V) (hle : VLe (s.thr t).view v) :
    Pend hash (s.move t pc v) g t op v0 := h.ext (.move pc v) (.move pc hle)

theorem Done.move {r : Option V} (h : Done s t r) (pc : Pc K V) (hle : VLe (s.thr t).view v) (hv : VOk hash s g (s.thr t).view) :
    Done (s.move t pc v) t r := h.ext (hash := hash) (g := g) (g' := g) (.move pc v) (.move pc hle) hv

theorem KAbs.move {x : Kont K V} (h : KAbs hash s g t x) (pc : Pc K V) (hle : VLe (s.thr t).view v) (hv : VOk hash s g (s.thr t).view) :
    KAbs hash (s.move t pc v) g t x := h.ext (.move pc v) (.move pc hle) hv

/-- An answer without a change. -/
theorem late {op : Op K V} {v0 : View K} {x r : Option V} (hp : Pend hash s g t op v0) (hs : Saw s t (opKey op) v0 x)
    (hq : ∀ q : K → Option V, q (opKey op) = x → dict.apply q op = (q, r)) : Done s t r := by
  obtain ⟨n, h1, h2, _, h4⟩ := hs
  exact ⟨op, v0, hp.job, .inl ⟨n, hp.no, h1, h2, hq _ h4⟩⟩

theorem apply_get (q : K → Option V) (k : K) : dict.apply q (.get k) = (q, q k) := rfl

theorem apply_refresh {q : K → Option V} {k : K} {v : V} (h : q k = none) : dict.apply q (opOf .refresh k v) = (q, none) := by
  simp [dict, opOf, h]

theorem apply_fresh {q : K → Option V} {k : K} {v x : V} (h : q k = some x) : dict.apply q (opOf .fresh k v) = (q, some x) := by
  simp [dict, opOf, h]

theorem apply_absent {q : K → Option V} {k : K} (h : q k = none) : dict.apply q (.delete k) = (q, none) := by
  simp only [dict, h, Prod.mk.injEq, and_true]
  funext x
  split
  · rename_i e; rw [e, h]
  · rfl

theorem term_null {p : Ptr} (h : p = .null) : p.term := by rintro c rfl; cases h
theorem term_leaf {p : Ptr} {b : Addr} (h : p = .leaf b) : p.term := by rintro c rfl; cases h

theorem kabs_pc {x : Kont K V} (h : KAbs hash s g t x) : WAbs hash s g t (kontPc x) := by
  cases x with
  | patch m k v =>
    obtain ⟨v0, h⟩ := h
    exact ⟨v0, h, .root⟩
  | del k =>
    obtain ⟨v0, h⟩ := h
    exact ⟨v0, h, .root⟩
  | ret r => exact h
  | up ls r => cases ls <;> exact h

theorem czs_kont (x : Kont K V) : CzsV hash s g v (kontPc x) := by
  cases x with
  | patch | del | ret => trivial
  | up ls r => cases ls <;> trivial

theorem czs_cz0 (p : Slot) (c : Addr) (x : Kont K V) : CzsV hash s g v (cz0 p c x) := by
  intro j hj
  simp at hj

/-! ## Lookup -/

theorem step_get (hi : Inv hash s g) {cur : Slot} {h : UInt64} (hok : PcOk hash s.mem (gv g (s.thr t).view) t (.get k cur h))
    (habs : WAbs hash s g t (.get k cur h)) (hg : s.access code t i a (prog hash (.get k cur h)) = some s') : ∃ g', Inv hash s' g' := by
  obtain ⟨hσ, ho, hh⟩ := hok
  obtain ⟨v0, hp, hw⟩ := habs
  rw [slot_gv] at ho hh
  obtain ⟨m, hl, rfl⟩ := hi.load (knows_of hσ) hg
  refine ⟨g, ?_⟩
  cases hm : m.w.p with
  | null =>
    have e : getPc (V := V) k h m.w = .ret none := by simp [getPc, hm]
    rw [e]
    refine hi.moved hl.le hl.ok trivial trivial (late (hp.move _ hl.le) (hl.saw hi.log hp hw ho (term_null hm) _) fun q hq => ?_)
    rw [hm] at hq
    rw [apply_get, ← show q (opKey (Op.get k : Op K V)) = q k from rfl, hq]
    rfl
  | leaf b =>
    have e : getPc (V := V) k h m.w = .getData k b := by simp [getPc, hm]
    rw [e]
    obtain ⟨h1, l, h2, _⟩ := hl.leafAt hi.log hm
    have := hl.saw hi.log hp hw ho (term_leaf hm) (.getData k b)
    rw [hm] at this
    exact hi.moved hl.le hl.ok ⟨h1, l, h2⟩ trivial ⟨v0, hp.move _ hl.le, this⟩
  | node b =>
    have e : getPc (V := V) k h m.w = .get k (.of b (chunk h 0)) (h >>> 4) := by simp [getPc, hm]
    rw [e]
    obtain ⟨h1, h2, h3, h4, _⟩ := hl.down hi.log hm hσ ho
    have hh := hh (by omega)
    have hc : chunk h 0 = chunk (hash k) (LG * (g.slot cur).length) := by
      rw [hh, chunk_shift _ _ (by simp only [LG]; omega)]
    rw [hc]
    refine hi.moved hl.le hl.ok ⟨h1, by rw [slot_gv]; exact h2, fun hlt => ?_⟩ trivial ⟨v0, hp.move _ hl.le, hl.walk hp hw hm _⟩
    rw [slot_gv] at hlt ⊢
    rw [h3] at hlt ⊢
    rw [hh]
    exact shift_shift _ _ 4 (by simp only [LG]; omega)

/-- Reading a list. -/
theorem read_of {b : Addr} {l : List (K × V)} {f : List (K × V) → Pc K V} (hb : (s.thr t).view.ini b = true)
    (hl : s.mem.heap b = some (.leaf l)) (hg : s.access code t i a (.read b f) = some s') : s' = s.move t (f l) (s.thr t).view := by
  simp only [St.access, hb, if_true, list_of hl, Option.some.injEq] at hg
  exact hg.symm

theorem step_getData (hi : Inv hash s g) {b : Addr} (hok : PcOk hash s.mem (gv g (s.thr t).view) t (.getData k b))
    (habs : WAbs hash s g t (.getData k b)) (hg : s.access code t i a (prog hash (.getData k b)) = some s') : ∃ g', Inv hash s' g' := by
  obtain ⟨hb, l, hl⟩ := hok
  obtain ⟨v0, hp, hs⟩ := habs
  obtain rfl := read_of (safe_gv.1 hb) hl hg
  simp only [St.val, list_of hl] at hs
  refine ⟨g, hi.moved (.refl _) (hi.thr t).view trivial trivial ?_⟩
  refine late (hp.move _ (.refl _)) (hs.ext (.move (hash := hash) (g := g) _ _) (.move _ (.refl _))) fun q hq => ?_
  rw [apply_get, ← hq]
  rfl

/-! ## Writes -/

theorem step_patch (hi : Inv hash s g) {md : WMode} {v : V} {lvl : Nat} {cur : Slot} {par : Option Level}
    (hok : PcOk hash s.mem (gv g (s.thr t).view) t (.patch md k v lvl cur par)) (habs : WAbs hash s g t (.patch md k v lvl cur par))
    (hg : s.access code t i a (prog hash (.patch md k v lvl cur par)) = some s') : ∃ g', Inv hash s' g' := by
  obtain ⟨hcur, hpar⟩ := hok
  obtain ⟨v0, hp, hw⟩ := habs
  have ho := hcur.on
  have hlvl := hcur.lvl
  rw [slot_gv] at ho hlvl
  obtain ⟨m, hl, rfl⟩ := hi.load (knows_of hcur.slot) hg
  have hk := hl.keeps (hi.thr t).view
  refine ⟨g, ?_⟩
  by_cases hpe : m.w.pend = true
  · cases par with
    | none =>
      have := hpar.root rfl
      subst this
      have := hi.log.rootPend i m hl.get
      rw [hpe] at this
      cases this
    | some x =>
      obtain ⟨p, c⟩ := x
      have e : patchPc hash md k v lvl cur (some (p, c)) m.w = cz0 p c (.patch md k v) := by simp [patchPc, hpe]
      rw [e]
      exact hi.moved hl.le hl.ok (cz0_ok (hk.levOk (hpar.ok _ rfl)) trivial) (czs_cz0 _ _ _) ⟨v0, hp.move _ hl.le⟩
  · cases hm : m.w.p with
    | null =>
      by_cases hr : md = .refresh
      · subst hr
        have e : patchPc hash .refresh k v lvl cur par m.w = .ret none := by simp [patchPc, hpe, hm]
        rw [e]
        refine hi.moved hl.le hl.ok trivial trivial (late (x := none) (hp.move _ hl.le) ?_ fun q hq => apply_refresh hq)
        have := hl.saw hi.log hp hw ho (term_null hm) (.ret none)
        rw [hm] at this
        exact this
      · have e : patchPc hash md k v lvl cur par m.w = .patchNew md k v lvl cur par := by simp [patchPc, hpe, hm, hr]
        rw [e]
        exact hi.moved hl.le hl.ok ⟨hk.curOk hcur, hk.parOk hpar⟩ trivial ⟨⟨v0, hp.move _ hl.le, hw⟩, hr⟩
    | leaf b =>
      have e : patchPc hash md k v lvl cur par m.w = .patchData md k v lvl cur par b := by simp [patchPc, hpe, hm]
      rw [e]
      have := hl.saw hi.log hp hw ho (term_leaf hm) (.patchData md k v lvl cur par b)
      rw [hm] at this
      exact hi.moved hl.le hl.ok ⟨⟨hk.curOk hcur, hk.parOk hpar⟩, hl.leafAt hi.log hm⟩ trivial ⟨v0, hp.move _ hl.le, hw, this⟩
    | node b =>
      have e : patchPc hash md k v lvl cur par m.w = .patch md k v (lvl + LG) (.of b (chunk (hash k) lvl)) (some (cur, b)) := by
        simp [patchPc, hpe, hm]
      rw [e, hlvl]
      obtain ⟨h1, h2, h3, h4, h5⟩ := hl.down hi.log hm hcur.slot ho
      refine hi.moved hl.le hl.ok ⟨⟨h1, by rw [slot_gv]; exact h2, by rw [slot_gv, h3]; rfl⟩, fun x hx => (by cases hx; exact h5),
        fun h => (by cases h)⟩ trivial ⟨v0, hp.move _ hl.le, hl.walk hp hw hm _⟩

theorem step_patchData (hi : Inv hash s g) {md : WMode} {v : V} {lvl : Nat} {cur : Slot} {par : Option Level} {b : Addr}
    (hok : PcOk hash s.mem (gv g (s.thr t).view) t (.patchData md k v lvl cur par b)) (habs : WAbs hash s g t (.patchData md k v lvl cur par b))
    (hg : s.access code t i a (prog hash (.patchData md k v lvl cur par b)) = some s') : ∃ g', Inv hash s' g' := by
  obtain ⟨⟨hcur, hpar⟩, hsafe, l, hl, hlok⟩ := hok
  obtain ⟨v0, hp, hw, hs⟩ := habs
  obtain rfl := read_of (safe_gv.1 hsafe) hl hg
  simp only [St.val, list_of hl] at hs
  refine ⟨g, ?_⟩
  have hv := (hi.thr t).view
  have hs' : ∀ pc, Saw (s.move t pc (s.thr t).view) t (opKey (opOf md k v)) v0 ((find l k).map (·.2)) := fun pc => by
    rw [opKey_opOf]; exact hs.ext (.move (hash := hash) (g := g) _ _) (.move _ (.refl _))
  have hp' : ∀ pc, Pend hash (s.move t pc (s.thr t).view) g t (opOf md k v) v0 := fun pc => hp.move pc (.refl _)
  have hlen : ((gv g (s.thr t).view).slot cur).length ≤ 16 := by
    cases cur with
    | root => simp [Gh.slot]
    | of c i =>
      obtain ⟨_, f, hf⟩ := hcur.slot
      have := hi.log.sh.depth c f hf
      show (g.path c).length + 1 ≤ 16
      omega
  cases l with
  | nil => exact absurd rfl hlok.ne
  | cons x l =>
    by_cases hc : x.1 ≠ k ∧ lvl < LG * HEIGHT
    · have hlt : ((gv g (s.thr t).view).slot cur).length < 16 := by
        have := hc.2
        rw [hcur.lvl] at this
        simp only [LG, HEIGHT] at this
        omega
      have hone : l = [] := by
        have := hlok.one hlt
        simpa using this
      subst hone
      by_cases hm : md = .refresh
      · subst hm
        have e : patchDataPc hash .refresh k v lvl cur par b [x] = .ret none := by simp [patchDataPc, hc]
        rw [e]
        refine hi.moved (.refl _) hv trivial trivial (late (x := none) (hp' _) ?_ fun q hq => apply_refresh hq)
        have := hs' (.ret none)
        simp only [find, if_neg hc.1, Option.map_none] at this
        exact this
      · have e : patchDataPc hash md k v lvl cur par b [x] = .patchSplit md k v lvl cur par b (chunk (hash x.1) lvl) := by
          simp [patchDataPc, hc, hm]
        rw [e]
        exact hi.moved (.refl _) hv ⟨⟨hcur, hpar⟩, hsafe, x, hl, hlok.on x (by simp), hlt, by rw [← hcur.lvl]⟩ trivial ⟨v0, hp' _, hw⟩
    · cases hf : find (x :: l) k with
      | some y =>
        by_cases hm : md = .fresh
        · subst hm
          have e : patchDataPc hash .fresh k v lvl cur par b (x :: l) = .ret (some y.2) := by
            simp only [patchDataPc, if_neg hc, hf, if_true]
          rw [e]
          refine hi.moved (.refl _) hv trivial trivial (late (x := some y.2) (hp' _) ?_ fun q hq => apply_fresh hq)
          have := hs' (.ret (some y.2))
          rw [hf] at this
          exact this
        · have e : patchDataPc hash md k v lvl cur par b (x :: l) =
              .patchPut md k v lvl cur par b (without (x :: l) k ++ [(k, v)]) (some y.2) := by
            simp only [patchDataPc, if_neg hc, hf, if_neg hm]
          rw [e]
          have hfw := find_without hlok.nodup k
          have hsub := without_sub (l := x :: l) (k := k)
          have hnk : k ∉ (without (x :: l) k).map (·.1) := by
            intro hk
            obtain ⟨z, hz, rfl⟩ := List.mem_map.1 hk
            have h1 := (find_mem (hlok.nodup.sublist (hsub.map _))).2 hz
            rw [hfw] at h1
            simp at h1
          refine hi.moved (.refl _) hv ⟨⟨hcur, hpar⟩, hsafe, x :: l, hl, ⟨by simp, ?_, ?_, ?_⟩, ⟨by rw [hf]; rfl,
            fun _ => hm, fun h => (by cases h), fun k' => ?_⟩⟩ trivial ⟨v0, hp' _, hw⟩
          · rw [List.map_append, List.nodup_append]
            refine ⟨hlok.nodup.sublist (hsub.map _), by simp, fun z hz z' hz' => ?_⟩
            simp only [List.map_cons, List.map_nil, List.mem_singleton] at hz'
            subst hz'
            rintro rfl
            exact hnk hz
          · intro z hz
            rcases List.mem_append.1 hz with hz | hz
            · exact hlok.on z (hsub.subset hz)
            · simp only [List.mem_singleton] at hz
              subst hz; exact hcur.on
          · intro hlt
            have h1 := hlok.one hlt
            have h2 := without_length hf
            simp only [List.length_append, List.length_cons, List.length_nil] at *
            omega
          · rw [find_append, hfw]
            by_cases hk : k' = k
            · subst hk; simp [find]
            · simp only [if_neg hk, find, if_neg (Ne.symm hk), Option.or_none]
      | none =>
        by_cases hm : md = .refresh
        · subst hm
          have e : patchDataPc hash .refresh k v lvl cur par b (x :: l) = .ret none := by
            simp only [patchDataPc, if_neg hc, hf, if_true]
          rw [e]
          refine hi.moved (.refl _) hv trivial trivial (late (x := none) (hp' _) ?_ fun q hq => apply_refresh hq)
          have := hs' (.ret none)
          rw [hf] at this
          exact this
        · have e : patchDataPc hash md k v lvl cur par b (x :: l) = .patchPut md k v lvl cur par b ((x :: l) ++ [(k, v)]) none := by
            simp only [patchDataPc, if_neg hc, hf, if_neg hm]
          rw [e]
          have hne := find_none.1 hf
          refine hi.moved (.refl _) hv ⟨⟨hcur, hpar⟩, hsafe, x :: l, hl, ⟨by simp, ?_, ?_, ?_⟩, ⟨by rw [hf]; rfl,
            fun h => absurd rfl h, fun _ => hm, fun k' => ?_⟩⟩ trivial ⟨v0, hp' _, hw⟩
          · rw [List.map_append, List.nodup_append]
            refine ⟨hlok.nodup, by simp, fun z hz z' hz' => ?_⟩
            simp only [List.map_cons, List.map_nil, List.mem_singleton] at hz'
            subst hz'
            rintro rfl
            obtain ⟨y, hy, hy'⟩ := List.mem_map.1 hz
            exact hne y hy hy'
          · intro z hz
            rcases List.mem_append.1 hz with hz | hz
            · exact hlok.on z hz
            · simp only [List.mem_singleton] at hz
              subst hz; exact hcur.on
          · intro hlt
            exfalso
            apply hc
            refine ⟨hne x (by simp), ?_⟩
            rw [hcur.lvl]
            simp only [LG, HEIGHT]
            omega
          · rw [find_append]
            by_cases hk : k' = k
            · subst hk; rw [hf]; simp [find]
            · simp only [if_neg hk, find, if_neg (Ne.symm hk), Option.or_none]

/-! ## Removal and counting -/

theorem step_del (hi : Inv hash s g) {lvl : Nat} {cur : Slot} {levels : List Level}
    (hok : PcOk hash s.mem (gv g (s.thr t).view) t (.del k lvl cur levels)) (habs : WAbs hash s g t (.del k lvl cur levels))
    (hg : s.access code t i a (prog hash (.del k lvl cur levels)) = some s') : ∃ g', Inv hash s' g' := by
  obtain ⟨hcur, hlvs, hlen⟩ := hok
  obtain ⟨v0, hp, hw⟩ := habs
  have ho := hcur.on
  have hlvl := hcur.lvl
  rw [slot_gv] at ho hlvl
  obtain ⟨m, hl, rfl⟩ := hi.load (knows_of hcur.slot) hg
  have hk := hl.keeps (hi.thr t).view
  refine ⟨g, ?_⟩
  have hcz : m.w.pend = true → ∃ p c ls, levels = (p, c) :: ls := by
    intro hpe
    cases levels with
    | nil =>
      cases cur with
      | of b i => simp [Gh.slot] at hlen
      | root =>
        have := hi.log.rootPend i m hl.get
        rw [hpe] at this
        cases this
    | cons x ls => exact ⟨x.1, x.2, ls, rfl⟩
  cases hm : m.w.p with
  | null =>
    have e : delPc (V := V) hash k lvl cur levels m.w = .ret none := by simp [delPc, hm]
    rw [e]
    refine hi.moved hl.le hl.ok trivial trivial (late (x := none) (hp.move _ hl.le) ?_ fun q hq => apply_absent hq)
    have := hl.saw hi.log hp hw ho (term_null hm) (.ret none)
    rw [hm] at this
    exact this
  | leaf b =>
    by_cases hpe : m.w.pend = true
    · obtain ⟨p, c, ls, rfl⟩ := hcz hpe
      have e : delPc (V := V) hash k lvl cur ((p, c) :: ls) m.w = cz0 p c (.del k) := by simp [delPc, hm, hpe]
      rw [e]
      exact hi.moved hl.le hl.ok (cz0_ok (hk.levOk (hlvs _ (List.mem_cons_self ..))) trivial) (czs_cz0 _ _ _) ⟨v0, hp.move _ hl.le⟩
    · have e : delPc (V := V) hash k lvl cur levels m.w = .delData k lvl cur levels b := by simp [delPc, hm, hpe]
      rw [e]
      exact hi.moved hl.le hl.ok ⟨⟨hk.curOk hcur, hk.lvsOk hlvs, by rw [slot_gv] at hlen ⊢; exact hlen⟩, hl.leafAt hi.log hm⟩ trivial
        ⟨v0, hp.move _ hl.le, hw⟩
  | node b =>
    by_cases hpe : m.w.pend = true
    · obtain ⟨p, c, ls, rfl⟩ := hcz hpe
      have e : delPc (V := V) hash k lvl cur ((p, c) :: ls) m.w = cz0 p c (.del k) := by simp [delPc, hm, hpe]
      rw [e]
      exact hi.moved hl.le hl.ok (cz0_ok (hk.levOk (hlvs _ (List.mem_cons_self ..))) trivial) (czs_cz0 _ _ _) ⟨v0, hp.move _ hl.le⟩
    · obtain ⟨h1, h2, h3, h4, h5⟩ := hl.down hi.log hm hcur.slot ho
      rw [slot_gv] at hlen
      have e : delPc (V := V) hash k lvl cur levels m.w = .del k (lvl + LG) (.of b (chunk (hash k) lvl)) ((cur, b) :: levels) := by
        have hlt : levels.length < 16 := by omega
        simp [delPc, hm, hpe, hlt]
      rw [e, hlvl]
      refine hi.moved hl.le hl.ok ⟨⟨h1, by rw [slot_gv]; exact h2, by rw [slot_gv, h3]; rfl⟩, fun x hx => ?_, ?_⟩ trivial
        ⟨v0, hp.move _ hl.le, hl.walk hp hw hm _⟩
      · rcases List.mem_cons.1 hx with rfl | hx
        · exact h5
        · exact hk.levOk (hlvs x hx)
      · rw [slot_gv, h3, List.length_cons, hlen]

theorem step_delData (hi : Inv hash s g) {lvl : Nat} {cur : Slot} {levels : List Level} {b : Addr}
    (hok : PcOk hash s.mem (gv g (s.thr t).view) t (.delData k lvl cur levels b)) (habs : WAbs hash s g t (.delData k lvl cur levels b))
    (hg : s.access code t i a (prog hash (.delData k lvl cur levels b)) = some s') : ∃ g', Inv hash s' g' := by
  obtain ⟨hcur, hsafe, l, hl, hlok⟩ := hok
  obtain ⟨v0, hp, hw⟩ := habs
  obtain rfl := read_of (safe_gv.1 hsafe) hl hg
  have hsub : (l.filter fun x => x.1 ≠ k).Sublist l := List.filter_sublist ..
  refine ⟨g, hi.moved (.refl _) (hi.thr t).view ⟨hcur, hsafe, l, hl, fun hne => ⟨hne, hlok.nodup.sublist (hsub.map _),
    fun x hx => hlok.on x (hsub.subset hx), fun hlt => ?_⟩, ⟨by rw [findLast_eq hlok.nodup], fun k' => ?_⟩⟩ trivial
    ⟨v0, hp.move _ (.refl _), hw⟩⟩
  · have h1 := hlok.one hlt
    have h2 := hsub.length_le
    have h3 : 0 < (l.filter fun x => x.1 ≠ k).length := List.length_pos_iff.2 hne
    omega
  · rw [find_filter]
    by_cases hk : k' = k <;> simp [hk]

theorem step_count (hi : Inv hash s g) {levels : List Level} {p : Slot} {c : Addr} {j cnt : Nat} {r : Option V}
    (hok : PcOk hash s.mem (gv g (s.thr t).view) t (.count levels p c j cnt r)) (habs : WAbs hash s g t (.count levels p c j cnt r))
    (hg : s.access code t i a (prog hash (.count levels p c j cnt r)) = some s') : ∃ g', Inv hash s' g' := by
  obtain ⟨hlev, hlvs⟩ := hok
  have hv := (hi.thr t).view
  replace habs : Done s t r := habs
  simp only [prog] at hg
  split at hg
  · rename_i hlt
    have hkn : (s.thr t).view.knows (.of c ⟨j, hlt⟩) = true := safe_gv.1 hlev.safe
    simp only [St.access, hkn, if_true] at hg
    split at hg
    · cases hm : (s.log (.of c ⟨j, hlt⟩))[i]? with
      | none => simp only [hm] at hg; cases hg
      | some m =>
        simp only [hm, Bool.false_and, Bool.false_eq_true, if_false, Option.some.injEq] at hg
        subst hg
        have hle : VLe (s.thr t).view ((s.thr t).view.mark (.of c ⟨j, hlt⟩) i) := VLe.mark _ _
        have hk : Keeps s.mem s.mem (gv g (s.thr t).view) (gv g ((s.thr t).view.mark (.of c ⟨j, hlt⟩) i)) t :=
          (Ext.of (s' := s) rfl rfl rfl).keeps hv hle.ini
        exact ⟨g, hi.moved hle (hv.mark (by have := get_len hm; omega)) ⟨hk.levOk hlev, hk.lvsOk hlvs⟩ trivial (habs.move _ hle hv)⟩
    · cases hg
  · split at hg
    · cases hg
      exact ⟨g, hi.moved (.refl _) hv trivial trivial (habs.move _ (.refl _) hv)⟩
    · cases hg
      exact ⟨g, hi.moved (.refl _) hv (cz0_ok hlev hlvs) (czs_cz0 _ _ _) (Done.move habs _ (.refl _) hv)⟩

end Verif.Weak.Index
