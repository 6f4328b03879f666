import Verif.Bench.Lemmas
/-!
The invariant of C72 is kept by every step.
-/
namespace Verif.Bench

theorem getElem?_set_self' {ws : List W} {i : Nat} {w w' : W} (h : ws[i]? = some w) : (ws.set i w')[i]? = some w' := by
  have := (List.getElem?_eq_some_iff.1 h).1
  simp [this]

theorem W.rep_le (t : Nat) (w : W) : w.rep t ≤ 1 := by
  cases w <;> simp only [W.rep] <;> (try split) <;> omega

theorem here_append (t : Nat) (log : List (Nat × Nat)) (e : Nat × Nat) (h : e.1 + 1 = t) : (here t (log ++ [e])).length = (here t log).length + 1 := by
  simp [here, List.filterMap_append, h]

theorem want_other {log : List (Nat × Nat)} {k p q : Nat} (h : q ≠ p) : want (log ++ [(k, p)]) q = want log q := by
  simp [want, h]

/-- Steps of a connection that change nothing else. -/
theorem Inv.quiet {width N count : Nat} {s : St} (hI : Inv width N count s) {i : Nat} {w w' : W} (hw : s.ws[i]? = some w)
    (hok : w'.ok s.main) (hh : w'.hand = w.hand ∨ w'.hand = none ∧ s.exit = true)
    (hr : w'.rep s.main.tasks = w.rep s.main.tasks ∨ s.exit = true ∧ w.rep s.main.tasks ≤ w'.rep s.main.tasks)
    (hm : w'.mine s.main.tasks = w.mine s.main.tasks ∨ s.exit = true)
    (he : w'.empty s.main.tasks = true → w.empty s.main.tasks = true ∨ s.exit = true) : Inv width N count (s.to i w') := by
  have hset : ∀ {j : Nat} {x : W}, (s.ws.set i w')[j]? = some x → (j = i ∧ x = w') ∨ (j ≠ i ∧ s.ws[j]? = some x) := fun h => mem_set h
  have hhand : ∀ {j : Nat} {x : W} {p : Nat}, (s.ws.set i w')[j]? = some x → x.hand = some p → ∃ y, s.ws[j]? = some y ∧ y.hand = some p := by
    intro j x p hj hp
    rcases hset hj with ⟨rfl, rfl⟩ | ⟨_, hj⟩
    · rcases hh with hh | ⟨hh, _⟩
      · exact ⟨w, hw, hh ▸ hp⟩
      · rw [hh] at hp; cases hp
    · exact ⟨x, hj, hp⟩
  have hrep := sum_set (f := W.rep s.main.tasks) (w' := w') hw
  have hmine := sum_set (f := W.mine s.main.tasks) (w' := w') hw
  have hall : ∀ t, s.exit = false → s.main.tasks = t → (∀ x ∈ s.ws, x.rep t = 1) → ∀ x ∈ s.ws.set i w', x.rep t = 1 := by
    intro t hex ht h x hx
    subst ht
    obtain ⟨j, hj⟩ := List.mem_iff_getElem?.1 hx
    rcases hset hj with ⟨rfl, rfl⟩ | ⟨_, hj⟩
    · rcases hr with hr | ⟨hr, _⟩
      · rw [hr]; exact h w (List.mem_iff_getElem?.2 ⟨_, hw⟩)
      · rw [hex] at hr; cases hr
    · exact h x (List.mem_iff_getElem?.2 ⟨_, hj⟩)
  refine ⟨hI.pos, by simpa [St.to] using hI.len, hI.four, ?_, ?_, ?_, hI.nodup, hI.sorted, hI.range, hI.low, ?_, hI.past, ?_, ?_, ?_, ?_, ?_, ?_, hI.bad, hI.good, hI.tbl⟩
  · intro j x hj
    rcases hset hj with ⟨rfl, rfl⟩ | ⟨_, hj⟩
    · exact hok
    · exact hI.ok j x hj
  · intro j x p hj hp
    obtain ⟨y, hy, hp⟩ := hhand hj hp
    exact hI.hand j y p hy hp
  · intro j l x y p hj hl hne hp hp'
    obtain ⟨x, hx, hp⟩ := hhand hj hp
    obtain ⟨y, hy, hp'⟩ := hhand hl hp'
    exact hI.hands j l x y p hx hy hne hp hp'
  · intro hex hrun p h1 h2
    rcases hI.all hex hrun p h1 h2 with h | ⟨j, y, hj, hp⟩
    · exact .inl h
    · refine .inr ?_
      by_cases hji : j = i
      · subst hji
        rw [hw] at hj; cases hj
        rcases hh with hh | ⟨_, hh⟩
        · exact ⟨_, w', getElem?_set_self' hw, hh ▸ hp⟩
        · rw [show s.exit = false from hex] at hh; cases hh
      · exact ⟨j, y, by show (s.ws.set i w')[j]? = _; rw [List.getElem?_set_ne (Ne.symm hji)]; exact hj, hp⟩
  · intro hex hrun j x hj hx
    rcases hset hj with ⟨rfl, rfl⟩ | ⟨_, hj⟩
    · rcases he hx with he | he
      · exact hI.zero hex hrun _ w hw he
      · rw [show s.exit = false from hex] at he; cases he
    · exact hI.zero hex hrun j x hj hx
  · intro hrun hex
    have := hI.sum hrun hex
    rcases hm with hm | hm
    · show ((s.ws.set i w').map (W.mine s.main.tasks)).sum ≤ (here s.main.tasks s.log).length; omega
    · rw [show s.exit = false from hex] at hm; cases hm
  · intro hrun hex h0
    have := hI.work hrun hex h0
    rcases hm with hm | hm
    · show 0 < ((s.ws.set i w').map (W.mine s.main.tasks)).sum; omega
    · rw [show s.exit = false from hex] at hm; cases hm
  · intro k rem hk
    obtain ⟨h1, h2, h3, h4⟩ := hI.collect k rem hk
    refine ⟨h1, h2, ?_, ?_⟩
    · show s.inbox.length + N ≤ ((s.ws.set i w').map (W.rep s.main.tasks)).sum + rem
      rcases hr with hr | ⟨_, hr⟩ <;> omega
    · intro hex
      have := h4 hex
      show s.inbox.length + N = ((s.ws.set i w').map (W.rep s.main.tasks)).sum + rem
      rcases hr with hr | ⟨hr, _⟩
      · omega
      · rw [show s.exit = false from hex] at hr; cases hr
  · intro k hk
    obtain ⟨h1, h2, h3⟩ := hI.begin k hk
    exact ⟨h1, h2, hall k h2 (by rw [show s.main = _ from hk]; rfl) h3⟩
  · intro hd
    obtain ⟨h1, h2⟩ := hI.done hd
    exact ⟨h1, hall 4 h1 (by rw [show s.main = _ from hd]; rfl) h2⟩

/-- A position is taken. -/
theorem Inv.draw {width N count : Nat} {s : St} (hI : Inv width N count s) {i n d : Nat} (hw : s.ws[i]? = some (.draw n d)) :
    Inv width N count ({ s with target := s.target - 1 }.to i (.drawn n d s.target)) := by
  have hok := hI.ok i _ hw
  simp only [W.ok] at hok
  obtain ⟨hn, hn0, hrun⟩ := hok
  have hrun : s.main.running := hrun
  have hset : ∀ {j : Nat} {x : W}, (s.ws.set i (.drawn n d s.target))[j]? = some x → (j = i ∧ x = .drawn n d s.target) ∨ (j ≠ i ∧ s.ws[j]? = some x) := fun h => mem_set h
  have hrep := sum_set (f := W.rep s.main.tasks) (w' := .drawn n d s.target) hw
  have hmine := sum_set (f := W.mine s.main.tasks) (w' := .drawn n d s.target) hw
  simp only [W.rep, W.mine] at hrep hmine
  have hlow := hI.low hrun
  have hself : ∀ {p}, (W.drawn n d s.target).hand = some p → p = s.target ∧ 0 < p := by
    intro p h
    simp only [W.hand] at h
    split at h
    · cases h
    · cases h; omega
  have hnot : ∀ k, s.main ≠ .begin k := hrun
  have hnd : s.main ≠ .done := by
    intro h
    have := (hI.done h).2 _ (List.mem_iff_getElem?.2 ⟨_, hw⟩)
    simp [W.rep] at this
  refine ⟨hI.pos, by simpa [St.to] using hI.len, hI.four, ?_, ?_, ?_, hI.nodup, hI.sorted, ?_, ?_, ?_, hI.past, ?_, ?_, ?_, ?_, ?_, ?_, hI.bad, hI.good, hI.tbl⟩
  · intro j x hj
    rcases hset hj with ⟨rfl, rfl⟩ | ⟨_, hj⟩
    · exact ⟨hn, hn0, hrun⟩
    · exact hI.ok j x hj
  · intro j x p hj hp
    show s.target - 1 < p ∧ p ≤ count ∧ (s.main.tasks - 1, p) ∉ s.log
    rcases hset hj with ⟨rfl, rfl⟩ | ⟨_, hj⟩
    · obtain ⟨rfl, h0⟩ := hself hp
      refine ⟨by omega, hlow, fun hin => ?_⟩
      have := (hI.range _ hin).2.2.2 (by show s.main.tasks - 1 + 1 = _; omega) hrun
      simp at this
    · have := hI.hand j x p hj hp
      exact ⟨by omega, this.2⟩
  · intro j l x y p hj hl hne hp hp'
    rcases hset hj with ⟨e1, e2⟩ | ⟨_, hj'⟩ <;> rcases hset hl with ⟨e3, e4⟩ | ⟨_, hl'⟩
    · exact hne (e1.trans e3.symm)
    · subst e2
      obtain ⟨rfl, h0⟩ := hself hp
      have := (hI.hand l y _ hl' hp').1
      omega
    · subst e4
      obtain ⟨rfl, h0⟩ := hself hp'
      have := (hI.hand j x _ hj' hp).1
      omega
    · exact hI.hands j l x y p hj' hl' hne hp hp'
  · intro e he
    obtain ⟨h1, h2, h3, h4⟩ := hI.range e he
    refine ⟨h1, h2, h3, fun ht hr => ?_⟩
    have := h4 ht hr
    show s.target - 1 < e.2
    omega
  · intro _; show s.target - 1 ≤ count; omega
  · intro hex _ p h1 h2
    have h1 : s.target - 1 < p := h1
    by_cases hp : p = s.target
    · exact .inr ⟨i, _, getElem?_set_self' hw, by subst hp; simp only [W.hand]; rw [if_neg (by omega)]⟩
    · rcases hI.all hex hrun p (by omega) h2 with h | ⟨j, y, hj, hp⟩
      · exact .inl h
      · refine .inr ⟨j, y, ?_, hp⟩
        have hji : i ≠ j := by
          rintro rfl
          rw [hw] at hj; cases hj; cases hp
        show (s.ws.set i _)[j]? = _
        rw [List.getElem?_set_ne hji]; exact hj
  · intro hex _ j x hj hx
    show s.target - 1 = 0
    rcases hset hj with ⟨rfl, rfl⟩ | ⟨_, hj⟩
    · have : s.target = 0 := by simpa [W.empty] using hx
      omega
    · have := hI.zero hex hrun j x hj hx
      omega
  · intro _ hex
    have := hI.sum hrun hex
    show ((s.ws.set i _).map (W.mine s.main.tasks)).sum ≤ (here s.main.tasks s.log).length
    omega
  · intro _ hex h0
    have := hI.work hrun hex h0
    show 0 < ((s.ws.set i _).map (W.mine s.main.tasks)).sum
    omega
  · intro k rem hk
    obtain ⟨h1, h2, h3, h4⟩ := hI.collect k rem hk
    refine ⟨h1, h2, ?_, fun hex => ?_⟩
    · show s.inbox.length + N ≤ ((s.ws.set i _).map (W.rep s.main.tasks)).sum + rem
      omega
    · have := h4 hex
      show s.inbox.length + N = ((s.ws.set i _).map (W.rep s.main.tasks)).sum + rem
      omega
  · intro k hk; exact absurd hk (hnot k)
  · intro hd; exact absurd hd hnd

/-- The answer to a query is the expected one as long as nothing has gone wrong. -/
theorem exec_good {width N count : Nat} {s : St} (hI : Inv width N count s) (hex : s.exit = false) {i n d p : Nat}
    (hw : s.ws[i]? = some (.query n d p)) :
    ∃ t, exec width (n - 1) p s.tbl = (t, true) ∧ ∀ q, 1 ≤ q → q ≤ count → t (fmtPk width q) = want (s.log ++ [(n - 1, p)]) q := by
  obtain ⟨hn, hn0, hrun⟩ : n = s.main.tasks ∧ 0 < n ∧ ∀ k, s.main ≠ .begin k := hI.ok i _ hw
  obtain ⟨h1, h2, h3⟩ := hI.hand i _ p hw rfl
  have h4 := hI.four.1
  rw [← hn] at h3 h4
  have hpast : ∀ k, k + 1 < n → (k, p) ∈ s.log := fun k hk => hI.past k p (.inl (hn ▸ hk)) (by omega) h2
  have hfut : ∀ k, n ≤ k → (k, p) ∉ s.log := fun k hk hin => by have := (hI.range _ hin).1; simp only at this; omega
  have ht := hI.tbl hex p (by omega) h2
  have key : ∀ (v : Option Nat) (t : Tbl), (∀ x, t x = if x = fmtPk width p then v else s.tbl x) → v = want (s.log ++ [(n - 1, p)]) p →
      ∀ q, 1 ≤ q → q ≤ count → t (fmtPk width q) = want (s.log ++ [(n - 1, p)]) q := by
    intro v t hv hv' q hq1 hq2
    rw [hv]
    by_cases hpq : q = p
    · subst hpq; rw [if_pos rfl]; exact hv'
    · rw [if_neg (fun h => hpq (fmtPk_inj h)), want_other hpq]; exact hI.tbl hex q hq1 hq2
  have : n = 1 ∨ n = 2 ∨ n = 3 ∨ n = 4 := by omega
  rcases this with rfl | rfl | rfl | rfl
  · have hv : s.tbl (fmtPk width p) = none := by
      rw [ht]; simp [want, hfut 2, hfut 3, show (0, p) ∉ s.log from h3]
    refine ⟨_, by simp [exec, hv], key (some 0) _ (fun x => rfl) ?_⟩
    simp [want, hfut 2, hfut 3]
  · have hv : s.tbl (fmtPk width p) = some 0 := by
      rw [ht]; simp [want, hfut 2, hfut 3, hpast 0]
    refine ⟨s.tbl, by simp [exec, hv], key (some 0) _ (fun x => ?_) ?_⟩
    · split
      · next h => rw [h, hv]
      · rfl
    · simp [want, hfut 2, hfut 3, hpast 0]
  · have hv : s.tbl (fmtPk width p) = some 0 := by
      rw [ht]; simp [want, show (2, p) ∉ s.log from h3, hfut 3, hpast 0]
    refine ⟨_, by simp [exec, hv], key (some 1) _ (fun x => rfl) ?_⟩
    simp [want, hfut 3]
  · have hv : s.tbl (fmtPk width p) = some 1 := by
      rw [ht]; simp [want, show (3, p) ∉ s.log from h3, hpast 2]
    refine ⟨_, by simp [exec, hv], key none _ (fun x => rfl) ?_⟩
    simp [want]

/-- A query is carried out. The fields about the log. -/
theorem Inv.log_append {width N count : Nat} {s : St} (hI : Inv width N count s) {i n d p : Nat} (hw : s.ws[i]? = some (.query n d p)) :
    (s.log ++ [(n - 1, p)]).Nodup ∧ (s.log ++ [(n - 1, p)]).Pairwise (fun a b => a.1 ≤ b.1) ∧
    ∀ e ∈ s.log ++ [(n - 1, p)], e.1 < s.main.tasks ∧ 1 ≤ e.2 ∧ e.2 ≤ count ∧ (e.1 + 1 = s.main.tasks → s.main.running → s.target < e.2) := by
  obtain ⟨hn, hn0, hrun⟩ : n = s.main.tasks ∧ 0 < n ∧ ∀ k, s.main ≠ .begin k := hI.ok i _ hw
  obtain ⟨h1, h2, h3⟩ := hI.hand i _ p hw rfl
  rw [← hn] at h3
  refine ⟨?_, ?_, ?_⟩
  · rw [List.nodup_append]
    refine ⟨hI.nodup, by simp, ?_⟩
    intro a ha b hb
    rintro rfl
    simp only [List.mem_singleton] at hb
    subst hb
    exact h3 ha
  · rw [List.pairwise_append]
    refine ⟨hI.sorted, by simp, ?_⟩
    intro a ha b hb
    simp only [List.mem_singleton] at hb
    subst hb
    have := (hI.range a ha).1
    show a.1 ≤ n - 1
    omega
  · intro e he
    rcases List.mem_append.1 he with he | he
    · exact hI.range e he
    · simp only [List.mem_singleton] at he
      subst he
      exact ⟨by show n - 1 < _; omega, by show 1 ≤ p; omega, h2, fun _ _ => h1⟩

/-- A query is answered as expected. -/
theorem Inv.answer {width N count : Nat} {s : St} (hI : Inv width N count s) {i n d p : Nat} (hw : s.ws[i]? = some (.query n d p)) {t : Tbl}
    (ht : s.exit = false → ∀ q, 1 ≤ q → q ≤ count → t (fmtPk width q) = want (s.log ++ [(n - 1, p)]) q) :
    Inv width N count ({ s with tbl := t, log := s.log ++ [(n - 1, p)] }.to i (.draw n (d + 1))) := by
  obtain ⟨hn, hn0, hrun⟩ : n = s.main.tasks ∧ 0 < n ∧ ∀ k, s.main ≠ .begin k := hI.ok i _ hw
  have hlog := hI.log_append hw
  have hset : ∀ {j : Nat} {x : W}, (s.ws.set i (.draw n (d + 1)))[j]? = some x → (j = i ∧ x = .draw n (d + 1)) ∨ (j ≠ i ∧ s.ws[j]? = some x) := fun h => mem_set h
  have hrep := sum_set (f := W.rep s.main.tasks) (w' := .draw n (d + 1)) hw
  have hmine := sum_set (f := W.mine s.main.tasks) (w' := .draw n (d + 1)) hw
  simp only [W.rep, W.mine] at hrep hmine
  have hnd : s.main ≠ .done := by
    intro h
    have := (hI.done h).2 _ (List.mem_iff_getElem?.2 ⟨_, hw⟩)
    simp [W.rep] at this
  refine ⟨hI.pos, by simpa [St.to] using hI.len, hI.four, ?_, ?_, ?_, hlog.1, hlog.2.1, hlog.2.2, hI.low, ?_, ?_, ?_, ?_, ?_, ?_, ?_, ?_, hI.bad, hI.good, ht⟩
  · intro j x hj
    rcases hset hj with ⟨rfl, rfl⟩ | ⟨_, hj⟩
    · exact ⟨hn, hn0, hrun⟩
    · exact hI.ok j x hj
  · intro j x q hj hp
    rcases hset hj with ⟨rfl, rfl⟩ | ⟨hji, hj⟩
    · cases hp
    · obtain ⟨h1, h2, h3⟩ := hI.hand j x q hj hp
      refine ⟨h1, h2, fun hin => ?_⟩
      rcases List.mem_append.1 hin with hin | hin
      · exact h3 hin
      · simp only [List.mem_singleton, Prod.mk.injEq] at hin
        exact hI.hands j i x _ q hj hw hji hp (by rw [hin.2]; rfl)
  · intro j l x y q hj hl hne hp hp'
    rcases hset hj with ⟨rfl, rfl⟩ | ⟨_, hj⟩
    · cases hp
    · rcases hset hl with ⟨rfl, rfl⟩ | ⟨_, hl⟩
      · cases hp'
      · exact hI.hands j l x y q hj hl hne hp hp'
  · intro hex hr q h1 h2
    rcases hI.all hex hr q h1 h2 with h | ⟨j, y, hj, hp⟩
    · exact .inl (List.mem_append_left _ h)
    · by_cases hji : i = j
      · subst hji
        rw [hw] at hj; cases hj; cases hp
        exact .inl (List.mem_append_right _ (by show _ ∈ [(n - 1, p)]; rw [hn]; exact List.mem_singleton.2 rfl))
      · refine .inr ⟨j, y, ?_, hp⟩
        show (s.ws.set i _)[j]? = _
        rw [List.getElem?_set_ne hji]; exact hj
  · intro k q hk h1 h2
    exact List.mem_append_left _ (hI.past k q hk h1 h2)
  · intro hex hr j x hj hx
    rcases hset hj with ⟨rfl, rfl⟩ | ⟨_, hj⟩
    · cases hx
    · exact hI.zero hex hr j x hj hx
  · intro hr hex
    have := hI.sum hr hex
    show ((s.ws.set i _).map (W.mine s.main.tasks)).sum ≤ (here s.main.tasks (s.log ++ [(n - 1, p)])).length
    rw [here_append _ _ _ (by show n - 1 + 1 = _; omega)]
    omega
  · intro _ _ _
    have := le_sum (f := W.mine s.main.tasks) hw
    simp only [W.mine] at this
    show 0 < ((s.ws.set i _).map (W.mine s.main.tasks)).sum
    omega
  · intro k rem hk
    obtain ⟨h1, h2, h3, h4⟩ := hI.collect k rem hk
    refine ⟨h1, h2, ?_, fun hex => ?_⟩
    · show s.inbox.length + N ≤ ((s.ws.set i _).map (W.rep s.main.tasks)).sum + rem
      omega
    · have := h4 hex
      show s.inbox.length + N = ((s.ws.set i _).map (W.rep s.main.tasks)).sum + rem
      omega
  · intro k hk; exact absurd hk (hrun k)
  · intro hd; exact absurd hd hnd

/-- A query fails. -/
theorem Inv.fail {width N count : Nat} {s : St} (hI : Inv width N count s) {i n d p : Nat} (hw : s.ws[i]? = some (.query n d p)) {t : Tbl}
    {log : List (Nat × Nat)} (hl : log = s.log ∨ log = s.log ++ [(n - 1, p)]) :
    Inv width N count ({ s with tbl := t, log := log, exit := true, inbox := s.inbox ++ [false] }.to i (.wait n)) := by
  obtain ⟨hn, hn0, hrun⟩ : n = s.main.tasks ∧ 0 < n ∧ ∀ k, s.main ≠ .begin k := hI.ok i _ hw
  have hlog : log.Nodup ∧ log.Pairwise (fun a b => a.1 ≤ b.1) ∧
      ∀ e ∈ log, e.1 < s.main.tasks ∧ 1 ≤ e.2 ∧ e.2 ≤ count ∧ (e.1 + 1 = s.main.tasks → s.main.running → s.target < e.2) := by
    rcases hl with rfl | rfl
    · exact ⟨hI.nodup, hI.sorted, hI.range⟩
    · exact hI.log_append hw
  have hmem : ∀ e ∈ log, e ∈ s.log ∨ e = (n - 1, p) := by
    intro e he
    rcases hl with rfl | rfl
    · exact .inl he
    · simpa using he
  have hset : ∀ {j : Nat} {x : W}, (s.ws.set i (.wait n))[j]? = some x → (j = i ∧ x = .wait n) ∨ (j ≠ i ∧ s.ws[j]? = some x) := fun h => mem_set h
  have hrep := sum_set (f := W.rep s.main.tasks) (w' := .wait n) hw
  simp only [W.rep, hn, if_true] at hrep
  have hnd : s.main ≠ .done := by
    intro h
    have := (hI.done h).2 _ (List.mem_iff_getElem?.2 ⟨_, hw⟩)
    simp [W.rep] at this
  refine ⟨hI.pos, by simpa [St.to] using hI.len, hI.four, ?_, ?_, ?_, hlog.1, hlog.2.1, hlog.2.2, hI.low, fun h => (by cases h), ?_, fun h => (by cases h), fun _ h => (by cases h), fun _ h => (by cases h), ?_, ?_, ?_, fun _ => .inl (by simp [St.to]), fun h => (by cases h), fun h => by cases h⟩
  · intro j x hj
    rcases hset hj with ⟨rfl, rfl⟩ | ⟨_, hj⟩
    · exact .inl hn
    · exact hI.ok j x hj
  · intro j x q hj hp
    rcases hset hj with ⟨rfl, rfl⟩ | ⟨hji, hj⟩
    · cases hp
    · obtain ⟨h1, h2, h3⟩ := hI.hand j x q hj hp
      refine ⟨h1, h2, fun hin => ?_⟩
      rcases hmem _ hin with hin | hin
      · exact h3 hin
      · simp only [Prod.mk.injEq] at hin
        exact hI.hands j i x _ q hj hw hji hp (by rw [hin.2]; rfl)
  · intro j l x y q hj hl hne hp hp'
    rcases hset hj with ⟨rfl, rfl⟩ | ⟨_, hj⟩
    · cases hp
    · rcases hset hl with ⟨rfl, rfl⟩ | ⟨_, hl⟩
      · cases hp'
      · exact hI.hands j l x y q hj hl hne hp hp'
  · intro k q hk h1 h2
    have := hI.past k q hk h1 h2
    show _ ∈ log
    rcases hl with rfl | rfl
    · exact this
    · exact List.mem_append_left _ this
  · intro k rem hk
    obtain ⟨h1, h2, h3, h4⟩ := hI.collect k rem hk
    refine ⟨h1, h2, ?_, fun hex => by cases hex⟩
    show (s.inbox ++ [false]).length + N ≤ ((s.ws.set i _).map (W.rep s.main.tasks)).sum + rem
    rw [hn]
    simp only [List.length_append, List.length_singleton]
    omega
  · intro k hk; exact absurd hk (hrun k)
  · intro hd; exact absurd hd hnd

/-- The result is sent. -/
theorem Inv.report {width N count : Nat} {s : St} (hI : Inv width N count s) {i n d : Nat} (hw : s.ws[i]? = some (.finish n d)) (hd : 0 < d) :
    Inv width N count ({ s with inbox := s.inbox ++ [true] }.to i (.sent n)) := by
  obtain ⟨hn, hn0, hrun⟩ : n = s.main.tasks ∧ 0 < n ∧ ∀ k, s.main ≠ .begin k := hI.ok i _ hw
  have hset : ∀ {j : Nat} {x : W}, (s.ws.set i (.sent n))[j]? = some x → (j = i ∧ x = .sent n) ∨ (j ≠ i ∧ s.ws[j]? = some x) := fun h => mem_set h
  have hrep := sum_set (f := W.rep s.main.tasks) (w' := .sent n) hw
  have hmine := sum_set (f := W.mine s.main.tasks) (w' := .sent n) hw
  simp only [W.rep, W.mine] at hrep hmine
  have hnd : s.main ≠ .done := by
    intro h
    have := (hI.done h).2 _ (List.mem_iff_getElem?.2 ⟨_, hw⟩)
    simp [W.rep] at this
  refine ⟨hI.pos, by simpa [St.to] using hI.len, hI.four, ?_, ?_, ?_, hI.nodup, hI.sorted, hI.range, hI.low, ?_, hI.past, ?_, ?_, ?_, ?_, ?_, ?_, ?_, ?_, hI.tbl⟩
  · intro j x hj
    rcases hset hj with ⟨rfl, rfl⟩ | ⟨_, hj⟩
    · exact hn
    · exact hI.ok j x hj
  · intro j x q hj hp
    rcases hset hj with ⟨rfl, rfl⟩ | ⟨hji, hj⟩
    · cases hp
    · exact hI.hand j x q hj hp
  · intro j l x y q hj hl hne hp hp'
    rcases hset hj with ⟨rfl, rfl⟩ | ⟨_, hj⟩
    · cases hp
    · rcases hset hl with ⟨rfl, rfl⟩ | ⟨_, hl⟩
      · cases hp'
      · exact hI.hands j l x y q hj hl hne hp hp'
  · intro hex hr q h1 h2
    rcases hI.all hex hr q h1 h2 with h | ⟨j, y, hj, hp⟩
    · exact .inl h
    · refine .inr ⟨j, y, ?_, hp⟩
      have hji : i ≠ j := by
        rintro rfl
        rw [hw] at hj; cases hj; cases hp
      show (s.ws.set i _)[j]? = _
      rw [List.getElem?_set_ne hji]; exact hj
  · intro hex hr j x hj hx
    rcases hset hj with ⟨rfl, rfl⟩ | ⟨_, hj⟩
    · exact hI.zero hex hr _ _ hw rfl
    · exact hI.zero hex hr j x hj hx
  · intro hr hex
    have := hI.sum hr hex
    show ((s.ws.set i _).map (W.mine s.main.tasks)).sum ≤ (here s.main.tasks s.log).length
    omega
  · intro _ _ _
    have := le_sum (f := W.mine s.main.tasks) hw
    simp only [W.mine] at this
    show 0 < ((s.ws.set i _).map (W.mine s.main.tasks)).sum
    omega
  · intro k rem hk
    obtain ⟨h1, h2, h3, h4⟩ := hI.collect k rem hk
    refine ⟨h1, h2, ?_, fun hex => ?_⟩
    · show (s.inbox ++ [true]).length + N ≤ ((s.ws.set i _).map (W.rep s.main.tasks)).sum + rem
      simp only [List.length_append, List.length_singleton]
      omega
    · have := h4 hex
      show (s.inbox ++ [true]).length + N = ((s.ws.set i _).map (W.rep s.main.tasks)).sum + rem
      simp only [List.length_append, List.length_singleton]
      omega
  · intro k hk; exact absurd hk (hrun k)
  · intro hd; exact absurd hd hnd
  · intro hex
    rcases hI.bad hex with h | h
    · exact .inl (List.mem_append_left _ h)
    · exact .inr h
  · intro hex
    refine ⟨fun h => ?_, (hI.good hex).2⟩
    rcases List.mem_append.1 h with h | h
    · exact (hI.good hex).1 h
    · simp at h

theorem workStep_inv {width N count : Nat} {s s' : St} (hI : Inv width N count s) {i : Nat} {w : W} (hw : s.ws[i]? = some w)
    (h : workStep width s i w = some s') : Inv width N count s' := by
  have hok := hI.ok i w hw
  cases w with
  | wait n =>
    simp only [workStep] at h
    split at h <;> cases h
    rename_i hlt
    simp only [W.ok] at hok
    have hn : n + 1 = s.main.tasks := by omega
    have hrun : ∀ k, s.main ≠ .begin k := by
      rcases hok with h | h
      · omega
      · exact h.2
    refine hI.quiet hw ⟨hn, by omega, hrun⟩ (.inl rfl) (.inl ?_) (.inl ?_) (fun h => by cases h)
    · simp only [W.rep]; rw [if_neg (by omega)]
    · simp only [W.mine]; rw [if_neg (by omega)]
  | got n =>
    simp only [workStep] at h; cases h
    exact hI.quiet hw hok (.inl rfl) (.inl rfl) (.inl rfl) (fun h => by cases h)
  | draw n d =>
    simp only [workStep] at h; cases h
    exact hI.draw hw
  | drawn n d p =>
    simp only [workStep] at h
    split at h
    · rename_i hex
      cases h
      exact hI.quiet hw (.inl hok.1) (.inr ⟨rfl, hex⟩) (.inr ⟨hex, Nat.zero_le _⟩) (.inr hex) (fun _ => .inr hex)
    · split at h
      · rename_i hp
        cases h
        refine hI.quiet hw hok (.inl (by simp [W.hand, hp])) (.inl rfl) (.inl rfl) (fun _ => .inl (by simp [W.empty, hp]))
      · rename_i hp
        cases h
        refine hI.quiet hw hok (.inl (by simp [W.hand, hp])) (.inl rfl) (.inl rfl) (fun h => by cases h)
  | query n d p =>
    simp only [workStep] at h
    split at h
    · rename_i t ht
      cases h
      refine hI.answer hw fun hex => ?_
      obtain ⟨t', h1, h2⟩ := exec_good hI hex hw
      rw [ht] at h1; cases h1
      exact h2
    · cases h
      exact hI.fail hw (.inr rfl)
  | finish n d =>
    simp only [workStep] at h
    split at h
    · rename_i hd
      cases h
      exact hI.quiet hw hok.2.2 (.inl rfl) (.inl rfl) (.inl (by simp [W.mine, hd])) (fun _ => .inl rfl)
    · cases h
      exact hI.report hw (by omega)
  | sent n =>
    simp only [workStep] at h; cases h
    have hok : n = s.main.tasks := hok
    refine hI.quiet hw (.inl hok) (.inl rfl) (.inl ?_) (.inl ?_) (fun _ => .inl rfl)
    · simp only [W.rep]; rw [if_pos hok]
    · simp only [W.mine]; rw [if_pos hok]
  | panicked => cases h

theorem mainStep_inv {width N count : Nat} {s s' : St} (hI : Inv width N count s) (h : mainStep N count s = some s') : Inv width N count s' := by
  obtain ⟨main, target, exit, ws, inbox, tbl, log⟩ := s
  cases main with
  | begin k =>
    simp only [mainStep] at h
    split at h <;> cases h
    rename_i hh
    obtain ⟨hin, hex, hrep⟩ := hI.begin k rfl
    simp only at hin hex hrep
    subst hin hex
    have hwait : ∀ w ∈ ws, w = .wait k := by
      intro w hw
      have h1 := hrep w hw
      have h2 : w.holds = false := by
        simp only [List.any_eq_true, not_exists, not_and, Bool.not_eq_true] at hh
        exact hh w hw
      cases w <;> simp_all [W.rep, W.holds]
    have hwait' : ∀ (j : Nat) (x : W), ws[j]? = some x → x = .wait k := fun j x hj => hwait x (List.mem_iff_getElem?.2 ⟨_, hj⟩)
    have hk := hI.four.2 k rfl
    refine ⟨hI.pos, hI.len, ⟨by show k + 1 ≤ 4; omega, fun _ h => by cases h⟩, ?_, ?_, ?_, hI.nodup, hI.sorted, ?_, fun _ => Nat.le_refl _, ?_, ?_, ?_, ?_, ?_, ?_, fun _ h => (by cases h), fun h => (by cases h), fun h => (by cases h), fun _ => ⟨by simp, fun _ h => by cases h⟩, hI.tbl⟩
    · intro j x hj
      rw [hwait' j x hj]
      exact .inr ⟨rfl, fun _ h => by cases h⟩
    · intro j x p hj hp
      rw [hwait' j x hj] at hp; cases hp
    · intro j l x y p hj hl hne hp
      rw [hwait' j x hj] at hp; cases hp
    · intro e he
      obtain ⟨h1, h2, h3, h4⟩ := hI.range e he
      have h1 : e.1 < k := h1
      exact ⟨by show e.1 < k + 1; omega, h2, h3, fun h => by have h : e.1 + 1 = k + 1 := h; omega⟩
    · intro _ _ p h1 h2
      have h1 : count < p := h1
      omega
    · intro k' p hk h1 h2
      refine hI.past k' p (.inr ⟨?_, fun h => h k rfl⟩) h1 h2
      show k' < k
      rcases hk with hk | hk
      · have hk : k' + 1 < k + 1 := hk
        omega
      · exact absurd (fun _ h => by cases h) hk.2
    · intro _ _ j x hj hx
      rw [hwait' j x hj] at hx
      simp [W.empty, Main.tasks] at hx
    · intro _ _
      show (ws.map _).sum ≤ _
      rw [sum_const (c := 0)]
      · simp
      · intro w hw; rw [hwait w hw]; simp [W.mine, Main.tasks]
    · intro _ _ h0
      have hnil : here (k + 1) log = [] := by
        simp only [here, List.filterMap_eq_nil_iff]
        intro e he
        have h1 : e.1 < k := (hI.range e he).1
        rw [if_neg (by omega)]
      have h0 : 0 < (here (k + 1) log).length := h0
      rw [hnil] at h0
      simp at h0
    · intro k' rem hk
      cases hk
      have : (ws.map (W.rep (k + 1))).sum = 0 := by
        rw [sum_const (c := 0)]
        · simp
        · intro w hw; rw [hwait w hw]; simp [W.rep]
      refine ⟨hI.pos, Nat.le_refl _, ?_, fun _ => ?_⟩
      · show 0 + N ≤ (ws.map (W.rep (k + 1))).sum + N; omega
      · show 0 + N = (ws.map (W.rep (k + 1))).sum + N; omega
  | collect k rem =>
    simp only [mainStep] at h
    obtain ⟨c1, c2, c3, c4⟩ := hI.collect k rem rfl
    simp only at c3 c4
    have hrun : (Main.collect k rem).running := fun _ h => by cases h
    split at h
    · rename_i rest
      cases h
      have hex : exit = true := by
        cases exit with
        | true => rfl
        | false => exact absurd (by simp) (hI.good rfl).1
      subst hex
      exact ⟨hI.pos, hI.len, ⟨hI.four.1, fun _ h => by cases h⟩, fun j x hj => by
          have := hI.ok j x hj
          cases x <;> simp_all [W.ok, Main.tasks], hI.hand, hI.hands, hI.nodup, hI.sorted, fun e he => by
          obtain ⟨h1, h2, h3, h4⟩ := hI.range e he
          exact ⟨h1, h2, h3, fun h _ => h4 h hrun⟩, fun _ => hI.low hrun, fun h => (by cases h), fun k' p hk => by
          refine hI.past k' p ?_
          rcases hk with hk | hk
          · exact .inl hk
          · exact absurd (fun _ h => by cases h) hk.2, fun h => (by cases h), fun _ h => (by cases h), fun _ h => (by cases h), fun _ _ h => (by cases h), fun _ h => (by cases h), fun h => (by cases h), fun _ => .inr ⟨_, rfl⟩, fun h => (by cases h), fun h => (by cases h)⟩
    · rename_i rest
      cases h
      have hbad : exit = true → false ∈ rest := fun h => by
        rcases hI.bad h with h | ⟨_, h⟩
        · simpa using h
        · cases h
      have hgood : exit = false → false ∉ rest := fun h => by simpa using (hI.good h).1
      have hNR := sum_le (f := W.rep (k + 1)) (c := 1) (ws := ws) fun w _ => W.rep_le _ w
      have hlen : ws.length = N := hI.len
      have htasks : (Main.collect k rem).tasks = k + 1 := rfl
      rw [htasks] at c3 c4
      simp only [List.length_cons] at c3 c4
      by_cases hrem : rem = 1
      · subst hrem
        rw [if_pos rfl]
        have hrest : rest = [] := by
          cases rest with
          | nil => rfl
          | cons _ _ => simp only [List.length_cons] at c3; omega
        subst hrest
        have hex : exit = false := by
          cases exit with
          | false => rfl
          | true => simpa using hbad rfl
        subst hex
        have hall : ∀ w ∈ ws, w.rep (k + 1) = 1 := sum_full (fun w _ => W.rep_le _ w) (by have := c4 rfl; simp only [List.length_nil] at this; omega)
        have hkind : ∀ w ∈ ws, w = .wait (k + 1) ∨ ∃ n, w = .sent n := by
          intro w hw
          have := hall w hw
          cases w <;> simp_all [W.rep]
        have hne : ∃ (j : Nat) (x : W), ws[j]? = some x := by
          cases ws with
          | nil => have := hI.pos; simp only [List.length_nil] at hlen; omega
          | cons x _ => exact ⟨0, x, rfl⟩
        have htz : target = 0 := by
          obtain ⟨j, x, hj⟩ := hne
          refine hI.zero rfl hrun j x hj ?_
          rcases hkind x (List.mem_iff_getElem?.2 ⟨_, hj⟩) with rfl | ⟨n, rfl⟩
          · simp [W.empty, Main.tasks]
          · rfl
        have hhand : ∀ (j : Nat) (x : W), ws[j]? = some x → x.hand = none := by
          intro j x hj
          rcases hkind x (List.mem_iff_getElem?.2 ⟨_, hj⟩) with rfl | ⟨n, rfl⟩ <;> rfl
        have hfull : ∀ p, 1 ≤ p → p ≤ count → (k, p) ∈ log := by
          intro p h1 h2
          rcases hI.all rfl hrun p (by show target < p; omega) h2 with h | ⟨j, x, hj, hp⟩
          · exact h
          · rw [hhand j x hj] at hp; cases hp
        have hpast : ∀ k' p, k' < k + 1 → 1 ≤ p → p ≤ count → (k', p) ∈ log := by
          intro k' p hk h1 h2
          by_cases he : k' = k
          · subst he; exact hfull p h1 h2
          · exact hI.past k' p (.inl (by show k' + 1 < k + 1; omega)) h1 h2
        by_cases hk3 : k = 3
        · subst hk3
          rw [if_pos rfl]
          refine ⟨hI.pos, hI.len, ⟨Nat.le_refl _, fun _ h => by cases h⟩, ?_, hI.hand, hI.hands, hI.nodup, hI.sorted, ?_, fun _ => hI.low hrun, fun h _ => hI.all h hrun, ?_, fun h _ => hI.zero h hrun, fun _ => hI.sum hrun, fun _ => hI.work hrun, fun _ _ h => (by cases h), fun _ h => (by cases h), fun _ => ⟨rfl, hall⟩, fun h => (by cases h), fun _ => ⟨by simp, fun _ h => by cases h⟩, hI.tbl⟩
          · intro j x hj
            have := hI.ok j x hj
            rcases hkind x (List.mem_iff_getElem?.2 ⟨_, hj⟩) with rfl | ⟨n, rfl⟩
            · exact .inl rfl
            · exact this
          · intro e he
            obtain ⟨h1, h2, h3, h4⟩ := hI.range e he
            exact ⟨h1, h2, h3, fun h _ => h4 h hrun⟩
          · intro k' p hk h1 h2
            refine hpast k' p ?_ h1 h2
            rcases hk with hk | hk
            · have hk : k' + 1 < 4 := hk
              omega
            · exact hk.1
        · rw [if_neg hk3]
          have h4 := hI.four.1
          have h4 : k + 1 ≤ 4 := h4
          have hnr : ¬ (Main.begin (k + 1)).running := fun h => h _ rfl
          refine ⟨hI.pos, hI.len, ⟨h4, fun _ h => by cases h; omega⟩, ?_, hI.hand, hI.hands, hI.nodup, hI.sorted, ?_, fun h => absurd h hnr, fun _ h => absurd h hnr, ?_, fun _ h => absurd h hnr, fun h => absurd h hnr, fun h => absurd h hnr, fun _ _ h => (by cases h), fun _ h => (by cases h; exact ⟨rfl, rfl, hall⟩), fun h => (by cases h), fun h => (by cases h), fun _ => ⟨by simp, fun _ h => by cases h⟩, hI.tbl⟩
          · intro j x hj
            have := hI.ok j x hj
            rcases hkind x (List.mem_iff_getElem?.2 ⟨_, hj⟩) with rfl | ⟨n, rfl⟩
            · exact .inl rfl
            · exact this
          · intro e he
            obtain ⟨h1, h2, h3, h4⟩ := hI.range e he
            exact ⟨h1, h2, h3, fun _ h => absurd h hnr⟩
          · intro k' p hk h1 h2
            refine hpast k' p ?_ h1 h2
            rcases hk with hk | hk
            · have hk : k' + 1 < k + 1 := hk
              omega
            · exact hk.1
      · rw [if_neg hrem]
        have hrun' : (Main.collect k (rem - 1)).running := fun _ h => by cases h
        refine ⟨hI.pos, hI.len, ⟨hI.four.1, fun _ h => by cases h⟩, ?_, hI.hand, hI.hands, hI.nodup, hI.sorted, ?_, fun _ => hI.low hrun, fun h _ => hI.all h hrun, ?_, fun h _ => hI.zero h hrun, fun _ => hI.sum hrun, fun _ => hI.work hrun, ?_, fun _ h => (by cases h), fun h => (by cases h), fun h => .inl (hbad h), fun h => ⟨hgood h, fun _ h => by cases h⟩, hI.tbl⟩
        · intro j x hj
          have := hI.ok j x hj
          cases x <;> simp_all [W.ok, Main.tasks]
        · intro e he
          obtain ⟨h1, h2, h3, h4⟩ := hI.range e he
          exact ⟨h1, h2, h3, fun h _ => h4 h hrun⟩
        · intro k' p hk
          refine hI.past k' p ?_
          rcases hk with hk | hk
          · exact .inl hk
          · exact absurd hrun' hk.2
        · intro k' rem' hk
          cases hk
          refine ⟨by omega, by omega, ?_, fun hex => ?_⟩
          · show rest.length + N ≤ (ws.map (W.rep (k + 1))).sum + (rem - 1); omega
          · have := c4 hex
            show rest.length + N = (ws.map (W.rep (k + 1))).sum + (rem - 1); omega
    · split at h <;> cases h
      refine ⟨hI.pos, hI.len, ⟨hI.four.1, fun _ h => by cases h⟩, ?_, hI.hand, hI.hands, hI.nodup, hI.sorted, ?_, fun _ => hI.low hrun, fun h _ => hI.all h hrun, ?_, fun h _ => hI.zero h hrun, fun _ => hI.sum hrun, fun _ => hI.work hrun, fun _ _ h => (by cases h), fun _ h => (by cases h), fun h => (by cases h), fun h => ?_, fun h => ⟨by simp, fun _ h => by cases h⟩, hI.tbl⟩
      · intro j x hj
        have := hI.ok j x hj
        cases x <;> simp_all [W.ok, Main.tasks]
      · intro e he
        obtain ⟨h1, h2, h3, h4⟩ := hI.range e he
        exact ⟨h1, h2, h3, fun h _ => h4 h hrun⟩
      · intro k' p hk
        refine hI.past k' p ?_
        rcases hk with hk | hk
        · exact .inl hk
        · exact absurd (fun _ h => by cases h) hk.2
      · rcases hI.bad h with h | ⟨_, h⟩
        · simp at h
        · cases h
  | done => cases h
  | failed k => cases h
  | dead k => cases h

theorem step_inv {width N count : Nat} {s s' : St} (hI : Inv width N count s) {a : Act} (h : step width N count s a = some s') : Inv width N count s' := by
  cases a with
  | main => exact mainStep_inv hI h
  | go i =>
    simp only [step] at h
    cases hw : s.ws[i]? with
    | none => rw [hw] at h; cases h
    | some w => rw [hw] at h; exact workStep_inv hI hw h
  | err i b =>
    simp only [step] at h
    split at h
    · rename_i n d p hw
      cases h
      cases b
      · exact hI.fail hw (.inl rfl)
      · exact hI.fail hw (.inr rfl)
    · cases h

theorem start_inv (width count : Nat) {N : Nat} (hN : 0 < N) : Inv width N count (start N) := by
  have hws : ∀ (i : Nat) (w : W), (start N).ws[i]? = some w → w = .wait 0 := by
    intro i w h
    have := List.mem_iff_getElem?.2 ⟨_, h⟩
    simp only [start, List.mem_replicate] at this
    exact this.2
  have hnr : ¬ (start N).main.running := fun h => h 0 rfl
  refine ⟨hN, by simp [start], ⟨by simp [start, Main.tasks], fun _ h => by cases h; omega⟩, ?_, ?_, ?_, by simp [start], by simp [start], by simp [start], fun h => absurd h hnr, fun _ h => absurd h hnr, ?_, fun _ h => absurd h hnr, fun h => absurd h hnr, fun h => absurd h hnr, fun _ _ h => (by cases h), fun _ h => (by cases h; exact ⟨rfl, rfl, by simp [start, W.rep]⟩), fun h => (by cases h), fun h => (by cases h), fun _ => ⟨by simp [start], fun _ h => by cases h⟩, fun _ _ _ _ => by simp [start, want]⟩
  · intro i w h; rw [hws i w h]; exact .inl rfl
  · intro i w p h hp; rw [hws i w h] at hp; cases hp
  · intro i j v w p h _ _ hp; rw [hws i v h] at hp; cases hp
  · intro k p hk
    simp [start, Main.tasks] at hk

theorem run_inv {width N count : Nat} : ∀ {as : List Act} {s s' : St}, Inv width N count s → run width N count s as = some s' → Inv width N count s'
  | [], s, s', hI, h => by cases h; exact hI
  | a :: as, s, s', hI, h => by
    simp only [run] at h
    cases hs : step width N count s a with
    | none => rw [hs] at h; cases h
    | some t => rw [hs] at h; exact run_inv (step_inv hI hs) h

end Verif.Bench
