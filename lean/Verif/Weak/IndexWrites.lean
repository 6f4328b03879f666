/-
The exchanges of the primary index under weak memory keep the invariant.
-/
import Verif.Weak.IndexSteps
set_option linter.unusedSectionVars false
namespace Verif.Weak.Index
open Verif.Conc Verif.Trie Verif.Trie.Conc

variable {K V : Type} [DecidableEq K]
variable {hash : K → UInt64} {s s' : St K V} {g g' : Gh} {v w : View K} {t u : Tid} {k : K} {i : Nat} {a : Addr}

/-- The two ends of an exchange. -/
theorem Inv.cas (_ : Inv hash s g) {σ : Slot} {p : Ptr} {x : New K V} {op : Option (Op K V)} {ok bad : Pc K V}
    (hk : (s.thr t).view.knows σ = true) (hg : s.access code t i a (.cas σ p x op ok bad) = some s') :
    (∃ m, (s.log σ).getLast? = some m ∧ m.w = ⟨p, false⟩ ∧ s.mem.heap a = none ∧
        s' = s.swap code t σ m (x.make a).1 (x.make a).2 op ok) ∨
      (i ≤ (s.log σ).length - 1 ∧ s' = s.move t bad ((s.thr t).view.mark σ i)) := by
  simp only [St.access, hk, if_true] at hg
  split at hg
  · cases hm : (s.log σ)[i]? with
    | none => simp only [hm] at hg; cases hg
    | some m =>
      simp only [hm] at hg
      split at hg
      · rename_i hw
        split at hg
        · rename_i hc
          cases hg
          refine .inl ⟨m, ?_, hw, by simpa using hc.2, rfl⟩
          rw [List.getLast?_eq_getElem?, show (s.log σ).length - 1 = i by omega]
          exact hm
        · cases hg
      · cases hg
        exact .inr ⟨by have := get_len hm; omega, rfl⟩
  · cases hg

/-- The exchange failed. -/
theorem Inv.missed (hi : Inv hash s g) {σ : Slot} {bad : Pc K V} (hj : i ≤ (s.log σ).length - 1)
    (hok : PcOk hash s.mem (gv g (s.thr t).view) t bad) (hcz : CzsV hash s g (s.thr t).view bad) (habs : WAbs hash s g t bad) :
    Inv hash (s.move t bad ((s.thr t).view.mark σ i)) g := by
  have hle : VLe (s.thr t).view ((s.thr t).view.mark σ i) := VLe.mark _ _
  have hv := (hi.thr t).view
  have hk : Keeps s.mem s.mem (gv g (s.thr t).view) (gv g ((s.thr t).view.mark σ i)) t := (Ext.of (s' := s) rfl rfl rfl).keeps hv hle.ini
  exact hi.moved hle (hv.mark hj) (hk.pcOk hok) (hcz.ext (Ext.of (s' := s) rfl rfl rfl) hi.log hok hle.ini hle.ev)
    (habs.ext (.move _ _) (.move _ hle) hv hok)

section
variable {σ : Slot} {last : Msg K} {p0 p : Ptr} {new : Option (Addr × Cell K V)} {op : Option (Op K V)} {old : Option Addr} {pc : Pc K V}

/-- What the thread knows of a key where it exchanges the list. -/
theorem Inv.kev (hi : Inv hash s g) (hk : (s.thr t).view.knows σ = true) (hlst : (s.log σ).getLast? = some last) (hw : last.w = ⟨p0, false⟩)
    (ht : p0.term) {k : K} (ho : OnP (hash k) (g.slot σ)) :
    lastChg s.chg k s.chg.length ≤ ((s.thr t).view.join last.view).ev k := by
  have hld := hi.log.last_word hlst
  rw [hw] at hld
  have htm : last.w.p.term := by rw [hw]; exact ht
  rw [← hi.log.live σ last k (hi.log.unfrozen hld) hlst htm ho]
  exact (hi.log.use (last_get hlst) (hi.thr t).view hk).ev htm k ho

/-- Exchanges of lists. -/
theorem Inv.swapLeaf (hi : Inv hash s g) {x : Op K V} {n : Addr} {l : List (K × V)} (hk : (s.thr t).view.knows σ = true)
    (hlst : (s.log σ).getLast? = some last) (hw : last.w = ⟨p0, false⟩) (hold : (p0 = .null ∧ old = none) ∨ ∃ b, p0 = .leaf b ∧ old = some b)
    (hnew : (l = [] ∧ p = .null ∧ new = none) ∨
      (l ≠ [] ∧ p = .leaf n ∧ new = some (n, .leaf l) ∧ s.mem.heap n = none ∧ LeafOk hash l (g.slot σ)))
    (hv : ∀ k', OnP (hash k') (g.slot σ) → (dict.apply (mapOf s.chg) x).1 k' = (find l k').map (·.2))
    (hx : OnP (hash (opKey x)) (g.slot σ)) :
    SwapOk hash s (s.swap code t σ last p new (some x) pc) g t σ last p0 p new (some x) old := by
  have hld := hi.log.last_word hlst
  rw [hw] at hld
  have hmap : mapOf (s.chg ++ [entryOf s t (some x)]) = (dict.apply (mapOf s.chg) x).1 := by rw [mapOf_append]; rfl
  have ht0 : p0.term := by
    rcases hold with ⟨h, _⟩ | ⟨b, h, _⟩
    · exact term_null h
    · exact term_leaf h
  have ht : p.term := by
    rcases hnew with ⟨_, h, _⟩ | ⟨_, h, _⟩
    · exact term_null h
    · exact term_leaf h
  have hnb : ∀ n' f, new ≠ some (n', .branch f) := by
    intro n' f hn
    rcases hnew with ⟨_, _, h⟩ | ⟨_, _, h, _⟩ <;> rw [h] at hn <;> cases hn
  refine ⟨?_, rfl, rfl, hi.log, (hi.thr t).view, hk, hlst, hw, ?_, fun n' f _ _ hn => absurd hn (hnb n' f), fun b hb => ?_,
    fun k' _ ho _ => hi.kev hk hlst hw ht0 ho, fun n' f _ _ hn => absurd hn (hnb n' f), fun n' f _ _ hn => absurd hn (hnb n' f),
    fun y hy => ?_⟩
  · cases new <;> rfl
  · rw [hmap]
    exact WriteOk.swap (e := ⟨mapOf s.chg, fun _ => .idle⟩) (hi.log.unfrozen hld) hld hold hnew hv
      (fun k' ho => apply_other (by rintro rfl; exact ho hx))
  · rcases hnew with ⟨_, h, _⟩ | ⟨_, h, h', _⟩
    · rw [h] at hb; cases hb
    · rw [h] at hb; cases hb; exact .inl ⟨_, h'⟩
  · cases hy
    exact ⟨hx, ht0, ht⟩

end

theorem step_patchNew (hi : Inv hash s g) {md : WMode} {v : V} {lvl : Nat} {cur : Slot} {par : Option Level}
    (hok : PcOk hash s.mem (gv g (s.thr t).view) t (.patchNew md k v lvl cur par)) (habs : WAbs hash s g t (.patchNew md k v lvl cur par))
    (hg : s.access code t i a (prog hash (.patchNew md k v lvl cur par)) = some s') : ∃ g', Inv hash s' g' := by
  obtain ⟨hcur, hpar⟩ := hok
  obtain ⟨⟨v0, hp, hw⟩, hm⟩ := habs
  have ho := hcur.on
  rw [slot_gv] at ho
  simp only [prog, opFor_eq] at hg
  rcases hi.cas (knows_of hcur.slot) hg with ⟨last, hlst, hlw, hfree, rfl⟩ | ⟨hj, rfl⟩
  · have hld := hi.log.last_word hlst
    rw [hlw] at hld
    have hlive := hi.log.unfrozen hld
    have hval : ∀ k', OnP (hash k') (g.slot cur) → mapOf s.chg k' = none := fun k' ho =>
      hi.log.sh.val cur _ k' hlive hld (term_null rfl) ho
    have hap : dict.apply (mapOf s.chg) (opOf md k v) = (fun x => if x = k then some v else mapOf s.chg x, mapOf s.chg k) :=
      apply_put (fun h => absurd (hval k ho) h) (fun _ => hm)
    have h := hi.swapLeaf (pc := .ret none) (p := .leaf a) (new := some (a, .leaf [(k, v)])) (x := opOf md k v) (n := a) (l := [(k, v)])
      (old := none) (knows_of hcur.slot) hlst hlw (.inl ⟨rfl, rfl⟩)
      (.inr ⟨by simp, rfl, rfl, hfree, ⟨by simp, by simp, fun x hx => by simp only [List.mem_singleton] at hx; subst hx; exact ho, fun _ => rfl⟩⟩)
      (fun k' ho' => by
        rw [hap]
        simp only [find, hval k' ho']
        by_cases hk : k' = k
        · simp [hk]
        · simp [hk, Ne.symm hk]) (by rw [opKey_opOf]; exact ho)
    exact ⟨_, hi.swapped h trivial (by simp) (by simp) (h.done hp (by rw [hap]; exact hval k ho))⟩
  · exact ⟨g, hi.missed hj ⟨hcur, hpar⟩ trivial ⟨v0, hp, hw⟩⟩

theorem step_patchPut (hi : Inv hash s g) {md : WMode} {v : V} {lvl : Nat} {cur : Slot} {par : Option Level} {b : Addr}
    {l : List (K × V)} {r : Option V} (hok : PcOk hash s.mem (gv g (s.thr t).view) t (.patchPut md k v lvl cur par b l r))
    (habs : WAbs hash s g t (.patchPut md k v lvl cur par b l r))
    (hg : s.access code t i a (prog hash (.patchPut md k v lvl cur par b l r)) = some s') : ∃ g', Inv hash s' g' := by
  obtain ⟨⟨hcur, hpar⟩, hsafe, l0, hl, hlok, hput⟩ := hok
  obtain ⟨v0, hp, hw⟩ := habs
  have ho := hcur.on
  rw [slot_gv] at ho hlok
  simp only [prog, opFor_eq] at hg
  rcases hi.cas (knows_of hcur.slot) hg with ⟨last, hlst, hlw, hfree, rfl⟩ | ⟨hj, rfl⟩
  · have hld := hi.log.last_word hlst
    rw [hlw] at hld
    have hlive := hi.log.unfrozen hld
    have hval : ∀ k', OnP (hash k') (g.slot cur) → mapOf s.chg k' = (find l0 k').map (·.2) := by
      intro k' ho
      rw [hi.log.sh.val cur _ k' hlive hld (term_leaf rfl) ho]
      simp only [St.val, list_of hl]
    have hr : mapOf s.chg k = r := by rw [hval k ho, hput.eq]
    have hap : dict.apply (mapOf s.chg) (opOf md k v) = (fun x => if x = k then some v else mapOf s.chg x, mapOf s.chg k) :=
      apply_put (by rw [hr]; exact hput.fresh) (by rw [hr]; exact hput.refresh)
    have h := hi.swapLeaf (pc := .retire b (.ret r)) (p := .leaf a) (new := some (a, .leaf l)) (x := opOf md k v) (n := a) (l := l)
      (old := some b) (knows_of hcur.slot) hlst hlw (.inr ⟨b, rfl, rfl⟩) (.inr ⟨hlok.ne, rfl, rfl, hfree, hlok⟩)
      (fun k' ho' => by rw [hap]; simp only [hput.find k', hval k' ho']) (by rw [opKey_opOf]; exact ho)
    exact ⟨_, hi.swapped h trivial (by simp) (by simp) (h.done hp (by rw [hap]; exact hr))⟩
  · exact ⟨g, hi.missed hj ⟨hcur, hpar⟩ trivial ⟨v0, hp, hw⟩⟩

theorem step_delPut (hi : Inv hash s g) {lvl : Nat} {cur : Slot} {levels : List Level} {b : Addr}
    {l : List (K × V)} {r : Option V} (hok : PcOk hash s.mem (gv g (s.thr t).view) t (.delPut k lvl cur levels b l r))
    (habs : WAbs hash s g t (.delPut k lvl cur levels b l r))
    (hg : s.access code t i a (prog hash (.delPut k lvl cur levels b l r)) = some s') : ∃ g', Inv hash s' g' := by
  obtain ⟨⟨hcur, hlvs, hlen⟩, hsafe, l0, hl, hlok, hcut⟩ := hok
  obtain ⟨v0, hp, hw⟩ := habs
  have ho := hcur.on
  rw [slot_gv] at ho hlok
  simp only [prog] at hg
  rcases hi.cas (knows_of hcur.slot) hg with ⟨last, hlst, hlw, hfree, rfl⟩ | ⟨hj, rfl⟩
  · have hld := hi.log.last_word hlst
    rw [hlw] at hld
    have hlive := hi.log.unfrozen hld
    have hval : ∀ k', OnP (hash k') (g.slot cur) → mapOf s.chg k' = (find l0 k').map (·.2) := by
      intro k' ho
      rw [hi.log.sh.val cur _ k' hlive hld (term_leaf rfl) ho]
      simp only [St.val, list_of hl]
    have hr : mapOf s.chg k = r := by rw [hval k ho, hcut.eq]
    have hv : ∀ k', OnP (hash k') (g.slot cur) → (dict.apply (mapOf s.chg) (Op.delete k : Op K V)).1 k' = (find l k').map (·.2) := by
      intro k' ho
      simp only [apply_delete, hcut.find k', hval k' ho]
    have h := hi.swapLeaf (pc := .retire b (.up levels r)) (p := ((delNew l).make a).1) (new := ((delNew l).make a).2)
      (x := .delete k) (n := a) (l := l) (old := some b) (knows_of hcur.slot) hlst hlw (.inr ⟨b, rfl, rfl⟩)
      (by
        cases l with
        | nil => exact .inl ⟨rfl, rfl, rfl⟩
        | cons y l => exact .inr ⟨by simp, rfl, rfl, hfree, hlok (by simp)⟩) hv ho
    have hk := h.ext.keeps (t := t) (hi.thr t).view h.le.ini
    exact ⟨_, hi.swapped h (pc := .retire b (.up levels r)) (hk.lvsOk hlvs) (by simp) (by simp) (h.done hp hr)⟩
  · exact ⟨g, hi.missed hj ⟨hcur, hlvs, hlen⟩ trivial ⟨v0, hp, hw⟩⟩

theorem entryOf_none : mapOf (s.chg ++ [entryOf s t none]) = mapOf s.chg := by rw [mapOf_append]; rfl

theorem step_patchSplit (hi : Inv hash s g) {md : WMode} {v : V} {lvl : Nat} {cur : Slot} {par : Option Level} {b : Addr}
    {j : Fin 16} (hok : PcOk hash s.mem (gv g (s.thr t).view) t (.patchSplit md k v lvl cur par b j))
    (habs : WAbs hash s g t (.patchSplit md k v lvl cur par b j))
    (hg : s.access code t i a (prog hash (.patchSplit md k v lvl cur par b j)) = some s') : ∃ g', Inv hash s' g' := by
  obtain ⟨⟨hcur, hpar⟩, hsafe, x, hl, hx, hlt, hix⟩ := hok
  obtain ⟨v0, hp, hw⟩ := habs
  rw [slot_gv] at hx hlt hix
  simp only [prog] at hg
  have hkn := knows_of hcur.slot
  rcases hi.cas hkn hg with ⟨last, hlst, hlw, hfree, rfl⟩ | ⟨hj, rfl⟩
  · have hld := hi.log.last_word hlst
    rw [hlw] at hld
    have hlive := hi.log.unfrozen hld
    let f : Fin 16 → Word := fun j' => ⟨if j' = j then .leaf b else .null, false⟩
    have hf : f = fun j' => if j' = j then ⟨.leaf b, false⟩ else ⟨.null, false⟩ := by
      funext j'
      show (⟨if j' = j then .leaf b else .null, false⟩ : Word) = _
      split <;> rfl
    have hwr := WriteOk.split (e := ⟨mapOf s.chg, fun _ => .idle⟩) hi.log.sh hlive hld hfree hl hx hlt hix hf
    have hkev : ∀ k, OnP (hash k) (g.slot cur) → lastChg s.chg k s.chg.length ≤ ((s.thr t).view.join last.view).ev k :=
      fun k ho => hi.kev hkn hlst hlw (term_leaf rfl) ho
    have h : SwapOk hash s (s.swap code t cur last (.node a) (some (a, .branch f)) none (.patch md k v lvl cur par)) g t cur last (.leaf b)
        (.node a) (some (a, .branch f)) none none := by
      refine ⟨rfl, rfl, rfl, hi.log, (hi.thr t).view, hkn, hlst, hlw, by rw [entryOf_none]; exact hwr, ?_, fun _ h => (by cases h),
        fun _ h => absurd rfl (h a), ?_, ?_, fun _ h => (by cases h)⟩
      · intro n f' j' c hn hc
        cases hn
        replace hc : (if j' = j then Ptr.leaf b else .null) = .node c := hc
        split at hc <;> cases hc
      · intro n f' j' c hn hc
        cases hn
        replace hc : (if j' = j then Ptr.leaf b else .null) = .leaf c ∨ (if j' = j then Ptr.leaf b else .null) = .node c := hc
        split at hc
        · rcases hc with hc | hc <;> cases hc
          exact join_ini_l (safe_gv.1 hsafe)
        · rcases hc with hc | hc <;> cases hc
      · intro n f' j' k' hn _ ho
        exact hkev k' ho.2
    have hk := h.ext.keeps (t := t) (hi.thr t).view h.le.ini
    exact ⟨_, hi.swapped h ⟨hk.curOk hcur, hk.parOk hpar⟩ (by simp) (by simp) ⟨v0, hp.ext h.ext h.grow, hw.log h.ext.log⟩⟩
  · exact ⟨g, hi.missed hj ⟨hcur, hpar⟩ trivial ⟨v0, hp, hw⟩⟩

/-! ## Compression -/

/-- What `compress` puts in. -/
theorem Inv.shrink (hi : Inv hash s g) {x : Cz K V} {fc : Fin 16 → Word} {last : Msg K} {p : Ptr} {new : Option (Addr × Cell K V)}
    {pc : Pc K V} (hok : CzOk s.mem (gv g (s.thr t).view) t 16 x) (hcz : CzV hash s g (s.thr t).view x.c 16)
    (hfc : s.mem.heap x.c = some (.branch fc)) (hlst : (s.log x.p).getLast? = some last) (hlw : last.w = ⟨.node x.c, false⟩)
    (hcase : (p = .null ∧ new = none ∧ ∀ j, x.acc j = .null) ∨
      (∃ a l j, p = .leaf a ∧ new = none ∧ x.acc j = .leaf a ∧ (∀ j', j' ≠ j → x.acc j' = .null) ∧
        s.mem.heap a = some (.leaf l) ∧ l.length = 1) ∨
      (∃ n, p = .node n ∧ new = some (n, .branch fun j => ⟨x.acc j, false⟩) ∧ s.mem.heap n = none)) :
    SwapOk hash s (s.swap code t x.p last p new none pc) g t x.p last (.node x.c) p new none (some x.c) := by
  have hkn : (s.thr t).view.knows x.p = true := knows_of hok.lev.slot
  have hld := hi.log.last_word hlst
  rw [hlw] at hld
  have hlive := hi.log.unfrozen hld
  have hacc : ∀ j, fc j = ⟨x.acc j, true⟩ := fun j => hok.acc fc hfc j j.isLt
  obtain ⟨hcl, hcp, _⟩ := hi.log.sh.node x.p _ x.c hlive hld rfl
  have hch : ∀ j, ∃ m, (s.log (.of x.c j)).getLast? = some m ∧ m.w.p = x.acc j ∧ Knows hash s.chg g (s.thr t).view (.of x.c j) m := by
    intro j
    obtain ⟨m, h1, h2⟩ := hi.log.lastOf hfc j
    exact ⟨m, h1, by rw [h2, hacc], hcz j j.isLt m h1⟩
  have hev : ∀ j k, (x.acc j).term → OnP (hash k) (j :: g.slot x.p) →
      lastChg s.chg k s.chg.length ≤ ((s.thr t).view.join last.view).ev k := by
    intro j k ht ho
    obtain ⟨m, h1, h2, h3⟩ := hch j
    have hsl : g.slot (.of x.c j) = j :: g.slot x.p := by show j :: g.path x.c = _; rw [hcp]
    rw [← hi.log.live (.of x.c j) m k hcl h1 (by rw [h2]; exact ht) (by rw [hsl]; exact ho)]
    exact Nat.le_trans (h3.ev (by rw [h2]; exact ht) k (by rw [hsl]; exact ho)) (join_ev_l k)
  refine ⟨?_, rfl, rfl, hi.log, (hi.thr t).view, hkn, hlst, hlw, ?_, ?_, ?_, ?_, ?_, ?_, fun _ h => (by cases h)⟩
  · cases new <;> rfl
  · rw [entryOf_none]
    exact WriteOk.shrink (e := ⟨mapOf s.chg, fun _ => .idle⟩) hi.log.sh hlive hld hfc hacc hcase
  · intro n f j b hn hb
    rcases hcase with ⟨_, h, _⟩ | ⟨_, _, _, _, h, _⟩ | ⟨_, _, h, _⟩
    · rw [h] at hn; cases hn
    · rw [h] at hn; cases hn
    · rw [h] at hn; cases hn
      obtain ⟨m, h1, h2, _⟩ := hch j
      exact ⟨x.c, m, rfl, h1, by rw [h2]; exact hb⟩
  · intro b hb
    rcases hcase with ⟨h, _⟩ | ⟨b', l, j, h, _, h', _⟩ | ⟨_, h, _⟩
    · rw [h] at hb; cases hb
    · rw [h] at hb; cases hb
      obtain ⟨m, _, h2, h3⟩ := hch j
      exact .inr (join_ini_l (h3.ini b (.inl (by rw [h2]; exact h'))))
    · rw [h] at hb; cases hb
  · intro k ht ho _
    have hterm : ∀ j, (x.acc j).term := by
      intro j
      rcases hcase with ⟨_, _, h⟩ | ⟨_, _, j', _, _, h, h', _⟩ | ⟨n, h, _⟩
      · exact term_null (h j)
      · by_cases e : j = j'
        · subst e; exact term_leaf h
        · exact term_null (h' j e)
      · exact absurd h (ht n)
    exact hev (chunk (hash k) (LG * (g.slot x.p).length)) k (hterm _) ⟨rfl, ho⟩
  · intro n f j b hn hb
    rcases hcase with ⟨_, h, _⟩ | ⟨_, _, _, _, h, _⟩ | ⟨_, _, h, _⟩
    · rw [h] at hn; cases hn
    · rw [h] at hn; cases hn
    · rw [h] at hn; cases hn
      obtain ⟨m, _, h2, h3⟩ := hch j
      exact join_ini_l (h3.ini b (by rw [h2]; exact hb))
  · intro n f j k hn ht ho
    rcases hcase with ⟨_, h, _⟩ | ⟨_, _, _, _, h, _⟩ | ⟨_, _, h, _⟩
    · rw [h] at hn; cases hn
    · rw [h] at hn; cases hn
    · rw [h] at hn; cases hn
      exact hev j k ht ho

theorem step_cz (hi : Inv hash s g) {j : Nat} {x : Cz K V} (hok : PcOk hash s.mem (gv g (s.thr t).view) t (.cz j x))
    (hcz : CzsV hash s g (s.thr t).view (.cz j x)) (habs : WAbs hash s g t (.cz j x))
    (hg : s.access code t i a (prog hash (.cz j x)) = some s') : ∃ g', Inv hash s' g' := by
  replace hok : CzOk s.mem (gv g (s.thr t).view) t j x := hok
  replace habs : KAbs hash s g t x.k := habs
  replace hcz : CzV hash s g (s.thr t).view x.c j := hcz
  obtain ⟨fc, hfc⟩ := hok.lev.br
  simp only at hfc
  simp only [prog] at hg
  have hv := (hi.thr t).view
  split at hg
  · rename_i hlt
    have hini : (s.thr t).view.ini x.c = true := safe_gv.1 hok.lev.safe
    have hkn : (s.thr t).view.knows (.of x.c ⟨j, hlt⟩) = true := hini
    obtain ⟨last, hlst, hlw⟩ := hi.log.lastOf hfc ⟨j, hlt⟩
    simp only [St.access, hkn, if_true, hlst, Option.some.injEq] at hg
    subst hg
    have h := FreezeOk.mk' (pc := czPc ⟨j, hlt⟩ x last.w) hi hini hlst
    refine ⟨g, ?_⟩
    have hle : VLe (s.thr t).view (frView s t (.of x.c ⟨j, hlt⟩) last) := frView_le _
    have hk := h.ext.keeps (t := t) hv hle.ini
    have hc := hk.czOk hok
    have hnew : ∀ f, (s.freeze code t (.of x.c ⟨j, hlt⟩) last (czPc ⟨j, hlt⟩ x last.w)).mem.heap x.c = some (.branch f) →
        f ⟨j, hlt⟩ = ⟨last.w.p, true⟩ := by
      intro f hf
      rw [h.mem', store_branch hfc] at hf
      cases hf
      simp
    have hczv : CzV hash (s.freeze code t (.of x.c ⟨j, hlt⟩) last (czPc ⟨j, hlt⟩ x last.w)) g (frView s t (.of x.c ⟨j, hlt⟩) last) x.c (j + 1) := by
      intro j' hj' m hm
      by_cases e : j' = ⟨j, hlt⟩
      · subst e
        rw [h.log', if_pos rfl, List.getLast?_concat] at hm
        cases hm
        exact h.knows (VLe.mark _ _)
      · have hj : j'.val < j := by
          have : j'.val ≠ j := fun e' => e (Fin.ext e')
          omega
        exact CzV.ext hcz h.ext hi.log hfc (fun j1 hj1 => by rw [hok.acc fc hfc j1 hj1]) hle.ini hle.ev j' hj m hm
    have hkabs := habs.ext h.ext h.grow hv
    cases hp : last.w.p with
    | leaf b =>
      have e : czPc ⟨j, hlt⟩ x last.w = .czRead j b x := by simp [czPc, hp]
      rw [e] at h hk hc hnew hczv hkabs ⊢
      obtain ⟨l, hl, _⟩ := hi.log.leaf _ _ _ b (last_get hlst) hp
      have hb : (frView s t (.of x.c ⟨j, hlt⟩) last).ini b = true :=
        (hi.log.use (last_get hlst) hv hkn).ini b (.inl hp)
      exact hi.frozen h ⟨hc, safe_gv.2 hb, ⟨l, h.leaf hl⟩, hlt, fun f hf => by rw [hnew f hf, hp]⟩ hczv hkabs
    | null =>
      have e : czPc ⟨j, hlt⟩ x last.w = .cz (j + 1) (x.see ⟨j, hlt⟩ .null 0) := by simp [czPc, hp]
      rw [e] at h hk hc hnew hczv hkabs ⊢
      exact hi.frozen h (hc.next hlt (fun f hf => by rw [hnew f hf, hp]) (fun b hb => by cases hb)) hczv hkabs
    | node b =>
      have e : czPc ⟨j, hlt⟩ x last.w = .cz (j + 1) (x.see ⟨j, hlt⟩ (.node b) 0) := by simp [czPc, hp]
      rw [e] at h hk hc hnew hczv hkabs ⊢
      exact hi.frozen h (hc.next hlt (fun f hf => by rw [hnew f hf, hp]) (fun b hb => by cases hb)) hczv hkabs
  · have hi16 : j = 16 := by have := hok.le; omega
    subst hi16
    rcases hi.cas (knows_of hok.lev.slot) hg with ⟨last, hlst, hlw, hfree, rfl⟩ | ⟨hj, rfl⟩
    · have hfin : ∀ {p : Ptr} {new : Option (Addr × Cell K V)} {y : Kont K V}
          (_ : SwapOk hash s (s.swap code t x.p last p new none (.retire x.c y)) g t x.p last (.node x.c) p new none (some x.c)),
          (y = x.k ∨ y = x.k.restored) → ∃ g', Inv hash (s.swap code t x.p last p new none (.retire x.c y)) g' := by
        intro p new y h hy
        have hk := h.ext.keeps (t := t) hv h.le.ini
        have h1 := hk.kontOk hok.k
        have h2 := habs.ext h.ext h.grow hv
        refine ⟨_, hi.swapped h (pc := .retire x.c y) ?_ (by simp) (by simp) ?_⟩
        · rcases hy with rfl | rfl
          · exact h1
          · cases hk : x.k with
            | up ls r => trivial
            | patch | del | ret => rw [hk] at h1; exact h1
        · rcases hy with rfl | rfl
          · exact h2
          · show KAbs hash _ _ t x.k.restored
            cases hk : x.k with
            | up ls r => rw [hk] at h2; exact h2
            | patch | del | ret => rw [hk] at h2; exact h2
      cases hins : x.insert with
      | snode b =>
        have : x.last = some b ∧ x.cont = true ∧ x.cnt = 1 := by
          simp only [Cz.insert] at hins
          split at hins
          · rename_i b' hb'
            split at hins
            · rename_i hcc
              cases hins
              exact ⟨hb', hcc⟩
            · cases hins
          · split at hins <;> cases hins
        obtain ⟨j, l, _, h2, h3, h4, h5, h6⟩ := hok.one this.2.1 this.2.2 b this.1
        have e1 : czNew x = .ptr (.leaf b) := by simp [czNew, hins]
        have e2 : czKont x = x.k := by simp [czKont, hins]
        rw [e1, e2]
        exact hfin (hi.shrink hok hcz hfc hlst hlw (.inr (.inl ⟨b, l, j, rfl, rfl, h2, fun j' hne => h3 j' j'.isLt hne, h5, h6⟩))) (.inl rfl)
      | null =>
        have hz : x.cnt = 0 := by
          simp only [Cz.insert] at hins
          split at hins
          · split at hins <;> cases hins
          · split at hins
            · assumption
            · cases hins
        have e1 : czNew x = .ptr .null := by simp [czNew, hins]
        have e2 : czKont x = x.k := by simp [czKont, hins]
        rw [e1, e2]
        exact hfin (hi.shrink hok hcz hfc hlst hlw (.inl ⟨rfl, rfl, fun j => hok.zero hz j j.isLt⟩)) (.inl rfl)
      | restored =>
        have e1 : czNew x = .branch x.acc := by simp [czNew, hins]
        have e2 : czKont x = x.k.restored := by simp [czKont, hins]
        rw [e1, e2]
        exact hfin (hi.shrink hok hcz hfc hlst hlw (.inr (.inr ⟨a, rfl, rfl, hfree⟩))) (.inr rfl)
    · exact ⟨g, hi.missed hj (kont_ok hok.k) (czs_kont _) (kabs_pc habs)⟩

theorem step_czRead (hi : Inv hash s g) {j : Nat} {b : Addr} {x : Cz K V} (hok : PcOk hash s.mem (gv g (s.thr t).view) t (.czRead j b x))
    (hcz : CzsV hash s g (s.thr t).view (.czRead j b x)) (habs : WAbs hash s g t (.czRead j b x))
    (hg : s.access code t i a (prog hash (.czRead j b x)) = some s') : ∃ g', Inv hash s' g' := by
  obtain ⟨h1, h2, ⟨l, h3⟩, hlt, h4⟩ := hok
  simp only [prog, hlt, dite_true] at hg
  obtain rfl := read_of (safe_gv.1 h2) h3 hg
  have hv := (hi.thr t).view
  refine ⟨g, hi.moved (.refl _) hv (h1.next hlt h4 fun b' hb' => ?_) hcz (KAbs.move habs _ (.refl _) hv)⟩
  cases hb'
  refine ⟨h2, l, h3, rfl, ?_⟩
  rintro rfl
  exact hi.log.sh.ne b h3

/-! ## All accesses -/

theorem Inv.go (hi : Inv hash s g) (hg : s.access code t i a (prog hash (s.thr t).pc) = some s') : ∃ g', Inv hash s' g' := by
  have ht := hi.thr t
  have hok := ht.ok
  have hcz := ht.cz
  have habs := ht.abs
  cases hpc : (s.thr t).pc with
  | idle | fault | panic => rw [hpc] at hg; cases hg
  | ret r =>
    rw [hpc] at hg
    cases hg
    exact ⟨g, hi.moved (.refl _) ht.view trivial trivial trivial⟩
  | retire b x =>
    rw [hpc] at hg hok habs
    cases hg
    exact ⟨g, hi.moved (.refl _) ht.view (kont_ok hok) (czs_kont _) (kabs_pc (KAbs.move habs _ (.refl _) ht.view))⟩
  | get => rw [hpc] at hg hok habs; exact step_get hi hok habs hg
  | getData => rw [hpc] at hg hok habs; exact step_getData hi hok habs hg
  | patch => rw [hpc] at hg hok habs; exact step_patch hi hok habs hg
  | patchNew => rw [hpc] at hg hok habs; exact step_patchNew hi hok habs hg
  | patchData => rw [hpc] at hg hok habs; exact step_patchData hi hok habs hg
  | patchSplit => rw [hpc] at hg hok habs; exact step_patchSplit hi hok habs hg
  | patchPut => rw [hpc] at hg hok habs; exact step_patchPut hi hok habs hg
  | del => rw [hpc] at hg hok habs; exact step_del hi hok habs hg
  | delData => rw [hpc] at hg hok habs; exact step_delData hi hok habs hg
  | delPut => rw [hpc] at hg hok habs; exact step_delPut hi hok habs hg
  | count => rw [hpc] at hg hok habs; exact step_count hi hok habs hg
  | cz => rw [hpc] at hg hok hcz habs; exact step_cz hi hok hcz habs hg
  | czRead => rw [hpc] at hg hok hcz habs; exact step_czRead hi hok hcz habs hg

end Verif.Weak.Index
