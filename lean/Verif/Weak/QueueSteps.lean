/-
C74: every step of the queue under weak memory keeps the invariant. See `Verif.Weak.Queue`.
-/
import Verif.Weak.QueueInv
namespace Verif.Weak.Queue
open Verif.Conc

variable {α : Type}

theorem chain_inj {c : List Ptr} (h : c.Nodup) {i j p : Nat} (hi : c[i]? = some p) (hj : c[j]? = some p) : i = j := by
  obtain ⟨h1, h2⟩ := List.getElem?_eq_some_iff.1 hi
  obtain ⟨h3, h4⟩ := List.getElem?_eq_some_iff.1 hj
  exact (List.getElem_inj h).1 (h2.trans h4.symm)

theorem Good.join_le {c : List Ptr} {m w : View} (h : Good c m) (h' : Good c w) : Good c (w.release true m) := h.join h'

/-- `p.next` is exchanged: the enqueue takes effect. -/
theorem Inv.link {s : St α} (v : Inv s) {t : Tid} {x : α} {new p i : Nat} {m : Msg (Option Ptr)} (hpc : (s.thr t).pc = .e3 x new p)
    (hm : (s.next p)[i]? = some m) (hle : (s.thr t).view.nx p ≤ i) (hv : m.val = none) (hl : i + 1 = (s.next p).length) :
    let w' : View := { (s.thr t).view.sawNx p (i + 1) with ev := upd (s.thr t).view.ev s.ins.length true }
    Inv ((s.link p new x (w'.release true m.view)).at t (.e4 new p) w') := by
  intro w'
  have hown := v.own t new x (by rw [hpc]; rfl)
  obtain ⟨o1, o2, o3, o4⟩ := hown
  obtain ⟨q, kq⟩ : ∃ q, Knows s.chain (s.thr t).view p q := by have := v.pc t; rw [hpc] at this; exact this
  have hpa : p < s.alloc := v.bound p (List.mem_iff_getElem?.2 ⟨q, kq.1⟩)
  have hlen := v.len
  -- `p` is the last node of the chain
  have hlast : q + 1 = s.chain.length ∧ s.next p = [⟨none, .bot⟩] := by
    rcases v.next p hpa with ⟨k, n, y, -, -, e, -, -⟩ | ⟨h1, h2⟩
    · exfalso
      rw [e] at hm hl
      simp at hl
      subst hl
      simp at hm
      rw [← hm] at hv
      cases hv
    · exact ⟨h1 q kq.1, h2⟩
  obtain ⟨hq, hnx⟩ := hlast
  rw [hnx] at hm hl
  simp at hl
  subst hl
  simp at hm
  subst hm
  have hq' : q = s.ins.length := by omega
  -- what the thread knows now
  have w1 : Le (s.thr t).view w' := by
    refine ⟨fun y => ?_, fun _ h => h, fun j h => ?_⟩
    · by_cases e : y = p
      · subst e; simp [w', View.sawNx]; omega
      · simp [w', View.sawNx, e]
    · by_cases e : j = s.ins.length
      · subst e; simp [w']
      · simp [w', e, h]
  have wn : 1 ≤ w'.nx p := by simp [w', View.sawNx]
  have we : w'.ev q = true := by simp [w', hq']
  have up1 : Upto (s.chain ++ [new]) w' (q + 1) := by
    intro j hj
    by_cases e : j = q
    · subst e
      refine ⟨we, fun y hy => ?_⟩
      rw [List.getElem?_append_left (by omega), kq.1] at hy
      cases hy
      exact wn
    · have := (kq.2.2.mono w1) j (by omega)
      refine ⟨this.1, fun y hy => this.2 y ?_⟩
      rw [List.getElem?_append_left (by omega)] at hy
      exact hy
  have kn : Knows (s.chain ++ [new]) w' new (q + 1) := by
    refine ⟨by rw [hq, List.getElem?_append_right (by omega)]; simp, w1.ini new o4, up1⟩
  have gw : Good (s.chain ++ [new]) w' := by
    intro j hj
    by_cases e : j = q
    · subst e; exact ⟨by simp; omega, up1⟩
    · have hj' : (s.thr t).view.ev j = true := by
        have : j ≠ s.ins.length := by omega
        simpa [w', this] using hj
      obtain ⟨a, b⟩ := v.good t j hj'
      exact ⟨by simp; omega, (b.mono w1).ext (by omega) new⟩
  have rle : Le w' (w'.release true View.bot) := le_join_right _ _
  have gr : Good (s.chain ++ [new]) (w'.release true View.bot) := (good_bot _).join gw
  have nd : (s.chain ++ [new]).Nodup := by
    rw [List.nodup_append]
    refine ⟨v.nodup, by simp, fun a ha b hb => ?_⟩
    simp at hb
    subst hb
    intro e
    subst e
    exact o2 ha
  have hown : ∀ u z, (((s.link p new x (w'.release true View.bot)).at t (.e4 new p) w').thr u).pc.owned = some z →
      u ≠ t ∧ (s.thr u).pc.owned = some z := by
    intro u z h
    by_cases e : u = t
    · subst e; simp only [St.at, upd_same, Pc.owned] at h; cases h
    · simp only [St.at, St.link, upd_other _ _ e] at h; exact ⟨e, h⟩
  have htook : ∀ u, (((s.link p new x (w'.release true View.bot)).at t (.e4 new p) w').thr u).pc.took = (s.thr u).pc.took := by
    intro u
    by_cases e : u = t
    · subst e; simp only [St.at, upd_same, Pc.took, hpc]
    · simp only [St.at, St.link, upd_other _ _ e]
  exact {
    start := by
      simp only [St.at, St.link]
      rw [List.getElem?_append_left (by omega)]
      exact v.start
    len := by simp [St.at, St.link, hlen]
    nodup := nd
    bound := fun y hy => by
      rcases List.mem_append.1 hy with hy | hy
      · exact v.bound y hy
      · simp at hy; subst hy; exact o1
    data := fun k y h => by
      simp only [St.at, St.link] at h ⊢
      by_cases e : k + 1 < s.chain.length
      · rw [List.getElem?_append_left e] at h
        rw [List.getElem?_append_left (by omega)]
        exact v.data k y h
      · rw [List.getElem?_append_right (by omega)] at h
        have : k + 1 - s.chain.length = 0 := by
          have := (List.getElem?_eq_some_iff.1 h).1
          simp at this
          omega
        rw [this] at h
        simp at h
        subst h
        rw [List.getElem?_append_right (by omega), o3]
        have : k - s.ins.length = 0 := by omega
        rw [this]
        rfl
    headLen := v.headLen
    head := fun m y h => by
      obtain ⟨a, b⟩ := v.head m y h
      exact ⟨a.ext new, b.ext new⟩
    tail := fun y h => by
      obtain ⟨⟨q, a⟩, b⟩ := v.tail y h
      exact ⟨⟨q, a.ext new⟩, b.ext new⟩
    next := fun y hy => by
      simp only [St.at, St.link] at hy ⊢
      by_cases e : y = p
      · subst e
        refine .inl ⟨q, new, w'.release true View.bot, ?_, kn.1, ?_, kn.mono rle, gr⟩
        · rw [List.getElem?_append_left (by omega)]; exact kq.1
        · simp [hnx]
      · rw [upd_other _ _ e]
        rcases v.next y hy with ⟨k, n, z, a, b, c, d, g⟩ | ⟨a, b⟩
        · refine .inl ⟨k, n, z, ?_, ?_, c, d.ext new, g.ext new⟩
          · rw [List.getElem?_append_left (List.getElem?_eq_some_iff.1 a).1]; exact a
          · rw [List.getElem?_append_left (List.getElem?_eq_some_iff.1 b).1]; exact b
        · refine .inr ⟨fun k hk => ?_, b⟩
          by_cases hk' : k < s.chain.length
          · rw [List.getElem?_append_left hk'] at hk
            have : k = q := by have := a k hk; omega
            subst this
            rw [kq.1] at hk
            cases hk
            exact absurd rfl e
          · have := (List.getElem?_eq_some_iff.1 hk).1
            simp at this ⊢
            omega
    good := fun u => by
      by_cases e : u = t
      · subst e; simp only [St.at, upd_same]; exact gw
      · simp only [St.at, St.link, upd_other _ _ e]; exact (v.good u).ext new
    pc := fun u => by
      by_cases e : u = t
      · subst e
        simp only [St.at, upd_same]
        exact ⟨q, (kq.ext new).mono w1, kn⟩
      · simp only [St.at, St.link, upd_other _ _ e]
        exact (v.pc u).ext new
    own := fun u y z h => by
      obtain ⟨e, h⟩ := hown u _ h
      obtain ⟨a, b, c, d⟩ := v.own u y z h
      refine ⟨a, fun hm => ?_, c, ?_⟩
      · rcases List.mem_append.1 hm with hm | hm
        · exact b hm
        · simp at hm
          subst hm
          exact e (v.owns u t y z x ‹(s.thr u).pc.owned = _› (by rw [hpc]; rfl))
      · simp only [St.at, St.link, upd_other _ _ e]
        exact d
    owns := fun a b y z z' ha hb => v.owns a b y z z' (hown a _ ha).2 (hown b _ hb).2
    rets := fun k z h => by
      obtain ⟨a, b⟩ := v.rets k z h
      refine ⟨a, ?_⟩
      simp only [St.at, St.link]
      rw [List.getElem?_append_left (List.getElem?_eq_some_iff.1 b).1]
      exact b
    once := v.once
    took := fun u k h => v.took u k (by rw [htook] at h; exact h)
    tooks := fun a b k ha hb => v.tooks a b k (by rw [htook] at ha; exact ha) (by rw [htook] at hb; exact hb)
    all := fun k hk => by
      rcases v.all k hk with h | ⟨u, hu⟩
      · exact .inl h
      · exact .inr ⟨u, by rw [htook]; exact hu⟩ }

/-- `head` is exchanged: the dequeue takes effect. -/
theorem Inv.take {s : St α} (v : Inv s) {t : Tid} {h n i : Nat} {m : Msg Ptr} (hpc : (s.thr t).pc = .d3 h n) (hm : s.head[i]? = some m)
    (hv : m.val = h) (hl : i + 1 = s.head.length) :
    let w' : View := { (s.thr t).view with hd := i + 1 }
    Inv ((s.pushHead ⟨n, w'.release true m.view⟩).at t (.d4 h n s.outs) w') := by
  intro w'
  obtain ⟨q, q1, q2, q3⟩ : ∃ q, q ≤ s.outs ∧ Knows s.chain (s.thr t).view h q ∧ Knows s.chain (s.thr t).view n (q + 1) := by
    have := v.pc t; rw [hpc] at this; exact this
  obtain ⟨k1, k2⟩ := v.head i m hm
  have hi : i = s.outs := by have := v.headLen; omega
  have hq : q = s.outs := by
    rw [hv] at k1
    have := chain_inj v.nodup q2.1 k1.1
    omega
  subst hq
  have w1 : Le (s.thr t).view w' := ⟨fun _ => Nat.le_refl _, fun _ h => h, fun _ h => h⟩
  have htook : ∀ u k, (((s.pushHead ⟨n, w'.release true m.view⟩).at t (.d4 h n s.outs) w').thr u).pc.took = some k →
      (u = t ∧ k = s.outs) ∨ (u ≠ t ∧ (s.thr u).pc.took = some k) := by
    intro u k h
    by_cases e : u = t
    · subst e; simp only [St.at, upd_same, Pc.took, Option.some.injEq] at h; exact .inl ⟨rfl, h.symm⟩
    · simp only [St.at, St.pushHead, upd_other _ _ e] at h; exact .inr ⟨e, h⟩
  have hown : ∀ u z, (((s.pushHead ⟨n, w'.release true m.view⟩).at t (.d4 h n s.outs) w').thr u).pc.owned = some z →
      u ≠ t ∧ (s.thr u).pc.owned = some z := by
    intro u z h
    by_cases e : u = t
    · subst e; simp only [St.at, upd_same, Pc.owned] at h; cases h
    · simp only [St.at, St.pushHead, upd_other _ _ e] at h; exact ⟨e, h⟩
  have tlt : ∀ u k, (s.thr u).pc.took = some k → k < s.outs := by
    intro u k hk
    have := v.pc u
    cases hp : (s.thr u).pc <;> rw [hp] at hk this <;> simp only [Pc.took] at hk <;> first | cases hk | skip
    · exact this.1
    · exact this.1
    · exact this.1
  exact {
    start := v.start
    len := v.len
    nodup := v.nodup
    bound := v.bound
    data := v.data
    headLen := by simp [St.at, St.pushHead, v.headLen]
    head := fun j y hy => by
      simp only [St.at, St.pushHead] at hy
      by_cases e : j < s.head.length
      · rw [List.getElem?_append_left e] at hy
        exact v.head j y hy
      · rw [List.getElem?_append_right (by omega)] at hy
        have : j - s.head.length = 0 := by
          have := (List.getElem?_eq_some_iff.1 hy).1
          simp at this
          omega
        have hj : j = s.outs + 1 := by omega
        rw [this] at hy
        simp at hy
        subst hy
        subst hj
        exact ⟨(q3.mono w1).mono (le_join_right _ _), k2.join ((v.good t).saw w1 rfl)⟩
    tail := v.tail
    next := v.next
    good := fun u => by
      by_cases e : u = t
      · subst e; simp only [St.at, upd_same]; exact (v.good u).saw w1 rfl
      · simp only [St.at, St.pushHead, upd_other _ _ e]; exact v.good u
    pc := fun u => by
      by_cases e : u = t
      · subst e
        simp only [St.at, upd_same]
        exact ⟨Nat.lt_succ_self _, q2.mono w1, q3.mono w1⟩
      · simp only [St.at, St.pushHead, upd_other _ _ e]
        exact (v.pc u).outs (Nat.le_succ _)
    own := fun u y z h => by
      obtain ⟨e, h⟩ := hown u _ h
      simp only [St.at, St.pushHead, upd_other _ _ e]
      exact v.own u y z h
    owns := fun a b y z z' ha hb => v.owns a b y z z' (hown a _ ha).2 (hown b _ hb).2
    rets := fun k z h => by
      obtain ⟨a, b⟩ := v.rets k z h
      exact ⟨Nat.lt_succ_of_lt a, b⟩
    once := v.once
    took := fun u k h => by
      rcases htook u k h with ⟨-, rfl⟩ | ⟨-, h⟩
      · intro hm
        obtain ⟨⟨k, z⟩, h1, h2⟩ := List.mem_map.1 hm
        have := (v.rets k z h1).1
        simp only at h2
        omega
      · exact v.took u k h
    tooks := fun a b k ha hb => by
      rcases htook a k ha with ⟨rfl, e⟩ | ⟨e, ha⟩
      · rcases htook b k hb with ⟨rfl, -⟩ | ⟨-, hb⟩
        · rfl
        · have := tlt b k hb; omega
      · rcases htook b k hb with ⟨-, e⟩ | ⟨-, hb⟩
        · have := tlt a k ha; omega
        · exact v.tooks a b k ha hb
    all := fun k hk => by
      simp only [St.at, St.pushHead] at hk
      by_cases e : k = s.outs
      · subst e
        exact .inr ⟨t, by simp [St.at, Pc.took]⟩
      · rcases v.all k (by omega) with h | ⟨u, hu⟩
        · exact .inl h
        · refine .inr ⟨u, ?_⟩
          by_cases e : u = t
          · subst e; rw [hpc] at hu; cases hu
          · simp only [St.at, St.pushHead, upd_other _ _ e]; exact hu }

/-- The value is given to the caller. -/
theorem Inv.give {s : St α} (v : Inv s) {t : Tid} {n k : Nat} {x : α} (hpc : (s.thr t).pc = .d7 n k) (hx : s.data n = some x) :
    Inv ((s.give k x).at t (.dret (some x)) (s.thr t).view) := by
  obtain ⟨k1, k2⟩ : k < s.outs ∧ Knows s.chain (s.thr t).view n (k + 1) := by have := v.pc t; rw [hpc] at this; exact this
  have hk := v.took t k (by rw [hpc]; rfl)
  have htook : ∀ u j, (((s.give k x).at t (.dret (some x)) (s.thr t).view).thr u).pc.took = some j →
      u ≠ t ∧ (s.thr u).pc.took = some j := by
    intro u j h
    by_cases e : u = t
    · subst e; simp only [St.at, upd_same, Pc.took] at h; cases h
    · simp only [St.at, St.give, upd_other _ _ e] at h; exact ⟨e, h⟩
  have hown : ∀ u z, (((s.give k x).at t (.dret (some x)) (s.thr t).view).thr u).pc.owned = some z →
      u ≠ t ∧ (s.thr u).pc.owned = some z := by
    intro u z h
    by_cases e : u = t
    · subst e; simp only [St.at, upd_same, Pc.owned] at h; cases h
    · simp only [St.at, St.give, upd_other _ _ e] at h; exact ⟨e, h⟩
  exact {
    start := v.start
    len := v.len
    nodup := v.nodup
    bound := v.bound
    data := v.data
    headLen := v.headLen
    head := v.head
    tail := v.tail
    next := v.next
    good := fun u => by
      by_cases e : u = t
      · subst e; simp only [St.at, upd_same]; exact v.good u
      · simp only [St.at, St.give, upd_other _ _ e]; exact v.good u
    pc := fun u => by
      by_cases e : u = t
      · subst e; simp only [St.at, upd_same]; trivial
      · simp only [St.at, St.give, upd_other _ _ e]; exact v.pc u
    own := fun u y z h => by
      obtain ⟨e, h⟩ := hown u _ h
      simp only [St.at, St.give, upd_other _ _ e]
      exact v.own u y z h
    owns := fun a b y z z' ha hb => v.owns a b y z z' (hown a _ ha).2 (hown b _ hb).2
    rets := fun j z h => by
      rcases List.mem_append.1 h with h | h
      · exact v.rets j z h
      · simp at h
        obtain ⟨rfl, rfl⟩ := h
        refine ⟨k1, ?_⟩
        rw [← hx]
        exact (v.data _ _ k2.1).symm
    once := by
      simp only [St.at, St.give, List.map_append, List.map_cons, List.map_nil]
      rw [List.nodup_append]
      refine ⟨v.once, by simp, fun a ha b hb => ?_⟩
      simp only [List.mem_singleton] at hb
      subst hb
      intro e
      subst e
      exact hk ha
    took := fun u j h => by
      obtain ⟨e, h⟩ := htook u j h
      simp only [St.at, St.give, List.map_append, List.map_cons, List.map_nil]
      intro hm
      rcases List.mem_append.1 hm with hm | hm
      · exact v.took u j h hm
      · simp only [List.mem_singleton] at hm
        subst hm
        exact e (v.tooks u t j ‹(s.thr u).pc.took = _› (by rw [hpc]; rfl))
    tooks := fun a b j ha hb => v.tooks a b j (htook a j ha).2 (htook b j hb).2
    all := fun j hj => by
      simp only [St.at, St.give, List.map_append, List.map_cons, List.map_nil]
      rcases v.all j hj with h | ⟨u, hu⟩
      · exact .inl (List.mem_append_left _ h)
      · by_cases e : u = t
        · subst e
          rw [hpc] at hu
          simp only [Pc.took, Option.some.injEq] at hu
          subst hu
          exact .inl (List.mem_append_right _ (by simp))
        · exact .inr ⟨u, by rw [upd_other _ _ e]; exact hu⟩ }

end Verif.Weak.Queue
