/-
Every step of the queue keeps the invariant and is a step, or no step, of the indivisible queue.
-/
import Verif.Queue.Inv
namespace Verif.Queue
open Verif.Conc
variable {α : Type}

/-- What a step of the queue is for the indivisible queue. -/
def Next (a : ASt (List α) (Op α) (Ret α)) (o : Option (Ev (Op α) (Ret α))) (a' : ASt (List α) (Op α) (Ret α)) : Prop :=
  (o = none ∧ a' = a) ∨ AStep fifo a o a'

theorem upd_id {β : Type} (f : Nat → β) (t : Nat) : upd f t (f t) = f := by
  funext u; by_cases h : u = t
  · subst h; simp
  · simp [h]

theorem Inv.quiet0 {s : St α} {g : Gh α} {a : ASt (List α) (Op α) (Ret α)} (hi : Inv s g a) (t : Tid) (pc : Pc α)
    (i : Nat) (hb : busy pc = true → (s.thr t).pinned = true) (hok : PcOk g t i pc)
    (hpriv : ∀ x, privOf pc = some x → privOf (s.thr t).pc = some x)
    (hown : owns pc = true → owns (s.thr t).pc = true ∧ i = g.tp t)
    (habs : AbsOk g i pc (a.thr t)) :
    ∃ g' a', Inv (s.at t pc) g' a' ∧ Next a none a' := by
  have := hi.quiet t pc i (a.thr t) hb hok hpriv hown habs
  rw [upd_id] at this
  exact ⟨_, _, this, .inl ⟨rfl, rfl⟩⟩

theorem step_alloc {s : St α} {g : Gh α} {a : ASt (List α) (Op α) (Ret α)} (hi : Inv s g a) {t : Tid} {v : α}
    {x : Addr} (hpc : (s.thr t).pc = .e0 v) (hx : s.heap x = none) :
    Inv ({ s with heap := setHeap s.heap x (some ⟨some v, none⟩) }.at t (.e1 v x)) g a := by
  have hne : ∀ p y, g.a p = some y → p ∉ g.F → y ≠ x := by
    intro p y hp hf e
    obtain ⟨w, hw⟩ := a_some_iff.1 hp
    have := hi.sh.heap p _ hw hf
    simp only [e, hx] at this
    exact absurd this (by simp)
  have hpr : ∀ u y w, privOf (s.thr u).pc = some (y, w) → y ≠ x := by
    intro u y w hy e
    have := ((hi.tok u).priv y w hy).1
    rw [e, hx] at this
    exact absurd this (by simp)
  have hok := hi.tok t
  have hpin : (s.thr t).pinned = true := hok.pin (by rw [hpc]; rfl)
  refine hi.move t ?_ (Grows.refl g) (fun u hu => by simp [St.at, hu]) (fun u _ => rfl) (fun u _ => rfl)
    (fun _ _ h => h) (fun _ _ _ _ h => h) (fun u hu y w hy => ⟨?_, ((hi.tok u).priv y w hy).2⟩)
    (fun u _ ho => (hi.tok u).own ho) ?_ (fun u hu => ?_)
  · refine ⟨fun p y hp hf => ?_, hi.sh.inj, hi.sh.head, hi.sh.tail, hi.sh.lag, hi.sh.ret, hi.sh.retOk, hi.sh.retNodup,
      hi.sh.free, hi.sh.vals, hi.sh.q⟩
    have := hne p y.1 (by rw [Gh.a, hp]; rfl) hf
    simp only [St.at, setHeap, this, if_false]
    exact hi.sh.heap p y hp hf
  · have := hpr u y w hy
    simp only [St.at, setHeap, this, if_false]
  · constructor
    · simp only [St.at, upd_same]; trivial
    · simp only [St.at, upd_same]; exact fun _ => hpin
    · simp only [St.at, upd_same]; exact hok.now
    · simp only [St.at, upd_same]
      intro y w hy
      simp only [privOf, Option.some.injEq, Prod.mk.injEq] at hy
      obtain ⟨rfl, rfl⟩ := hy
      exact ⟨by simp [setHeap], fun p hp he => hne p _ he hp rfl⟩
    · simp only [St.at, upd_same, owns]; exact fun h => absurd h (by decide)
    · simp only [St.at, upd_same]
      have := hok.abs
      rw [hpc] at this
      exact this
  · constructor
    · simp only [St.at, upd_same, upd_other _ _ hu]
      intro y w z w' hy hz
      simp only [privOf, Option.some.injEq, Prod.mk.injEq] at hy
      obtain ⟨rfl, rfl⟩ := hy
      exact Ne.symm (hpr u z w' hz)
    · simp only [St.at, upd_same, owns]; exact fun h => absurd h (by decide)

theorem step_link {s : St α} {g : Gh α} {a : ASt (List α) (Op α) (Ret α)} (hi : Inv s g a) {t : Tid} {v : α}
    {new tl : Addr} {nd : Node α} (hpc : (s.thr t).pc = .e3 v new tl) (hn : s.heap tl = some nd)
    (hnx : nd.next = none) :
    Inv ({ s with heap := setHeap s.heap tl (some { nd with next := some new }) }.at t (.e4 new tl))
      { g with L := g.L ++ [(new, some v)] } ⟨a.q ++ [v], upd a.thr t (.done .unit)⟩ := by
  have hok := hi.tok t
  have hpin : (s.thr t).pinned = true := hok.pin (by rw [hpc]; rfl)
  have ho := hok.ok
  rw [hpc] at ho
  obtain ⟨h1, h2, h3⟩ := ho
  obtain ⟨w, hw, hr⟩ := hi.sh.read h3 (Nat.le_refl _) h1
  rw [hn] at hr
  have hnd := Option.some.inj hr
  subst hnd
  simp only at hnx
  have hlen1 := a_none hnx
  have hlen2 := a_lt h1
  have hTlt := a_lt hi.sh.tail
  have hHlt := a_lt hi.sh.head
  have hlen : g.L.length = g.tp t + 1 := by omega
  have hT : g.T = g.tp t := by omega
  obtain ⟨hp1, hp2⟩ := hok.priv new v (by rw [hpc]; rfl)
  have hnF : ∀ p, g.tp t ≤ p → p ∉ g.F := fun p hp => (h3 p hp).1
  have hntl : new ≠ tl := fun e => hp2 _ (hnF _ (Nat.le_refl _)) (by rw [h1, e])
  have hold : ∀ p, p < g.L.length → ({ g with L := g.L ++ [(new, some v)] } : Gh α).a p = g.a p := by
    intro p hp
    simp only [Gh.a]
    rw [List.getElem?_append_left hp]
  have hnew : ({ g with L := g.L ++ [(new, some v)] } : Gh α).a g.L.length = some new := by
    simp [Gh.a]
  have hover : ∀ p, g.L.length < p → ({ g with L := g.L ++ [(new, some v)] } : Gh α).a p = none := by
    intro p hp
    simp only [Gh.a, Option.map_eq_none_iff, List.getElem?_eq_none_iff, List.length_append, List.length_singleton]
    omega
  have hcase : ∀ p x, ({ g with L := g.L ++ [(new, some v)] } : Gh α).a p = some x →
      (p < g.L.length ∧ g.a p = some x) ∨ (p = g.L.length ∧ x = new) := by
    intro p x hx
    by_cases c1 : p < g.L.length
    · rw [hold p c1] at hx; exact .inl ⟨c1, hx⟩
    · by_cases c2 : p = g.L.length
      · subst c2; rw [hnew] at hx; exact .inr ⟨rfl, (Option.some.inj hx).symm⟩
      · rw [hover p (by omega)] at hx; exact absurd hx (by simp)
  have hg : Grows g { g with L := g.L ++ [(new, some v)] } :=
    ⟨fun p x hx => by rw [List.getElem?_append_left (List.getElem?_eq_some_iff.1 hx).1]; exact hx,
      Nat.le_refl _, Nat.le_refl _⟩
  have hprtl : ∀ u y w, privOf (s.thr u).pc = some (y, w) → y ≠ tl := by
    intro u y w hy e
    exact ((hi.tok u).priv y w hy).2 _ (hnF _ (Nat.le_refl _)) (by rw [h1, e])
  refine hi.move t ?_ hg (fun u hu => by simp [St.at, hu]) (fun u _ => rfl) (fun u hu => by simp [hu])
    (fun _ _ h => h) (fun _ _ _ _ h => h) (fun u hu y w hy => ⟨?_, ?_⟩)
    (fun u _ ho => (hi.tok u).own ho) ?_ (fun u hu => ?_)
  · refine ⟨fun p y hp hf => ?_, fun p p' x hx hx' hf hf' => ?_, hg.a hi.sh.head, hg.a hi.sh.tail, ?_, ?_, hi.sh.retOk,
      hi.sh.retNodup, hi.sh.free, fun p x hx => ?_, ?_⟩
    · have hpa : ({ g with L := g.L ++ [(new, some v)] } : Gh α).a p = some y.1 := by
        simp only [Gh.a]; simp only at hp; rw [hp]; rfl
      rcases hcase p y.1 hpa with ⟨c1, c2⟩ | ⟨rfl, c2⟩
      · have hp' : g.L[p]? = some y := by
          simp only at hp
          rwa [List.getElem?_append_left c1] at hp
        by_cases c3 : p = g.tp t
        · subst c3
          rw [hw] at hp'
          have := Option.some.inj hp'
          subst this
          simp only [St.at, setHeap, if_true]
          have : g.tp t + 1 = g.L.length := by omega
          rw [this, hnew]
        · have : y.1 ≠ tl := fun e => c3 (hi.sh.inj p _ tl (by rw [c2, e]) h1 hf (hnF _ (Nat.le_refl _)))
          simp only [St.at, setHeap, this, if_false]
          rw [hi.sh.heap p y hp' hf, hold (p + 1) (by omega)]
      · simp only [List.getElem?_append_right (Nat.le_refl _), Nat.sub_self, List.getElem?_cons_zero,
          Option.some.injEq] at hp
        subst hp
        simp only [St.at, setHeap, hntl, if_false, hp1]
        rw [hover _ (by omega)]
    · rcases hcase p x hx with ⟨c1, c2⟩ | ⟨c1, c2⟩ <;> rcases hcase p' x hx' with ⟨d1, d2⟩ | ⟨d1, d2⟩
      · exact hi.sh.inj p p' x c2 d2 hf hf'
      · subst d2; exact absurd c2 (hp2 p hf)
      · subst c2; exact absurd d2 (hp2 p' hf')
      · rw [c1, d1]
    · simp only [List.length_append, List.length_singleton]; omega
    · show s.retired = _
      rw [hi.sh.ret]
      refine List.map_congr_left (fun x hx => ?_)
      rw [hold]
      have := (hi.sh.retOk x.1 x.2 hx).1
      omega
    · by_cases c1 : p + 1 < g.L.length
      · simp only [List.getElem?_append_left c1] at hx
        exact hi.sh.vals p x hx
      · have hlt := (List.getElem?_eq_some_iff.1 hx).1
        simp only [List.length_append, List.length_singleton] at hlt
        have : p + 1 = g.L.length := by omega
        simp only [this, List.getElem?_append_right (Nat.le_refl _), Nat.sub_self, List.getElem?_cons_zero,
          Option.some.injEq] at hx
        subst hx
        simp
    · simp only
      rw [List.drop_append_of_le_length (by omega), List.map_append, hi.sh.q]
      simp
  · have := hprtl u y w hy
    simp only [St.at, setHeap, this, if_false]
  · intro p hp he
    rcases hcase p y he with ⟨c1, c2⟩ | ⟨c1, c2⟩
    · exact ((hi.tok u).priv y w hy).2 p hp c2
    · exact (hi.pair t u (Ne.symm hu)).priv new v y w (by rw [hpc]; rfl) hy c2.symm
  · constructor
    · simp only [St.at, upd_same]
      refine ⟨hg.a h1, ?_, h2, h3⟩
      rw [← hlen]; exact hnew
    · simp only [St.at, upd_same]; exact fun _ => hpin
    · simp only [St.at, upd_same]; exact hok.now
    · simp only [St.at, upd_same]
      intro y w hy
      exact absurd hy (by simp [privOf])
    · simp only [St.at, upd_same, owns]; exact fun h => absurd h (by decide)
    · simp only [St.at, upd_same]; rfl
  · constructor
    · simp only [St.at, upd_same, upd_other _ _ hu]
      intro y w z w' hy
      exact absurd hy (by simp [privOf])
    · simp only [St.at, upd_same, owns]; exact fun h => absurd h (by decide)

theorem step_head {s : St α} {g : Gh α} {a : ASt (List α) (Op α) (Ret α)} (hi : Inv s g a) {t : Tid}
    {h n : Addr} (hpc : (s.thr t).pc = .d3 h n) (hh : s.head = h) :
    ∃ v q', a.q = v :: q' ∧
    Inv ({ s with head := n }.at t (.d4 h n)) { g with H := g.H + 1 } ⟨q', upd a.thr t (.done (.val (some v)))⟩ := by
  have hok := hi.tok t
  have hpin : (s.thr t).pinned = true := hok.pin (by rw [hpc]; rfl)
  have ho := hok.ok
  rw [hpc] at ho
  obtain ⟨h1, h2, h3⟩ := ho
  have hH := (hi.sh.head_eq h3 h1).1 hh
  obtain ⟨w, hw⟩ := a_some_iff.1 h2
  have hv := hi.sh.vals _ _ hw
  obtain ⟨v, rfl⟩ : ∃ v, w = some v := by
    cases w with
    | none => exact absurd rfl hv
    | some v => exact ⟨v, rfl⟩
  have hq := hi.sh.q
  have hlt := (List.getElem?_eq_some_iff.1 hw).1
  have hge := (List.getElem?_eq_some_iff.1 hw).2
  rw [hH, List.drop_eq_getElem_cons hlt, hge, List.map_cons] at hq
  obtain ⟨q', hq', hqm⟩ : ∃ q', a.q = v :: q' ∧ (g.L.drop (g.tp t + 1 + 1)).map (·.2) = q'.map some := by
    cases hc : a.q with
    | nil => rw [hc] at hq; exact absurd hq (by simp)
    | cons b q' =>
      rw [hc, List.map_cons] at hq
      simp only [List.cons.injEq, Option.some.injEq] at hq
      exact ⟨q', by rw [hq.1], hq.2⟩
  refine ⟨v, q', hq', ?_⟩
  refine hi.move t ?_ ⟨fun _ _ h => h, Nat.le_succ _, Nat.le_refl _⟩ (fun u hu => by simp [St.at, hu]) (fun u _ => rfl)
    (fun u hu => by simp [hu]) (fun _ _ h => h) (fun _ _ _ _ h => h)
    (fun u hu y w hy => ⟨rfl, ((hi.tok u).priv y w hy).2⟩)
    (fun u _ ho => (hi.tok u).own ho) ?_ (fun u hu => ?_)
  · refine ⟨hi.sh.heap, hi.sh.inj, ?_, hi.sh.tail, hi.sh.lag, hi.sh.ret, fun p w hw => ?_, hi.sh.retNodup,
      fun p hp => ?_, hi.sh.vals, ?_⟩
    · show g.a (g.H + 1) = some n
      rw [hH]; exact h2
    · have := hi.sh.retOk p w hw
      exact ⟨Nat.lt_succ_of_lt this.1, this.2⟩
    · have := hi.sh.free p hp
      exact ⟨Nat.lt_succ_of_lt this.1, this.2⟩
    · show (g.L.drop (g.H + 1 + 1)).map (·.2) = q'.map some
      rw [hH]; exact hqm
  · constructor
    · simp only [St.at, upd_same]
      exact ⟨h1, h2, by show _ < g.H + 1; omega, h3⟩
    · simp only [St.at, upd_same]; exact fun _ => hpin
    · simp only [St.at, upd_same]; exact hok.now
    · simp only [St.at, upd_same]
      intro y w hy
      exact absurd hy (by simp [privOf])
    · simp only [St.at, upd_same]
      intro _ hmem
      obtain ⟨⟨p, w⟩, hpw, e⟩ := List.mem_map.1 hmem
      have := (hi.sh.retOk p w hpw).1
      have e : p = g.tp t := e
      omega
    · simp only [St.at, upd_same]
      exact ⟨v, hw, rfl⟩
  · constructor
    · simp only [St.at, upd_same, upd_other _ _ hu]
      intro y w z w' hy
      exact absurd hy (by simp [privOf])
    · simp only [St.at, upd_same, upd_other _ _ hu]
      intro _ ho e
      have hu := (hi.tok u).ok
      have : g.tp u < g.H := by
        cases hp : (s.thr u).pc <;> rw [hp] at ho hu <;> simp only [owns, Bool.false_eq_true] at ho
        · exact hu.2.2.1
        · exact hu.2.2.1
        · exact hu.2.2.1
      have e : g.tp t = g.tp u := e
      omega

theorem step_retire {s : St α} {g : Gh α} {a : ASt (List α) (Op α) (Ret α)} (hi : Inv s g a) {t : Tid}
    {h n : Addr} (hpc : (s.thr t).pc = .d6 h n) :
    Inv ({ s with retired := s.retired ++ [(h, s.pinnedNow)] }.at t (.d7 n))
      { g with R := g.R ++ [(g.tp t, s.pinnedNow)] } a := by
  have hok := hi.tok t
  have hpin : (s.thr t).pinned = true := hok.pin (by rw [hpc]; rfl)
  have ho := hok.ok
  rw [hpc] at ho
  obtain ⟨h1, h2, h3, h4, h5⟩ := ho
  have hown := hok.own (by rw [hpc]; rfl)
  have hH : ∀ u i, (s.thr u).pinned = true → Holds g u i →
      Holds { g with R := g.R ++ [(g.tp t, s.pinnedNow)] } u i := by
    intro u i hp hh p hip
    refine ⟨(hh p hip).1, fun w hw => ?_⟩
    simp only [List.mem_append, List.mem_singleton, Prod.mk.injEq] at hw
    rcases hw with hw | ⟨_, rfl⟩
    · exact (hh p hip).2 w hw
    · exact (hi.tok u).now hp
  refine hi.move t ?_ ⟨fun _ _ h => h, Nat.le_refl _, Nat.le_refl _⟩ (fun u hu => by simp [St.at, hu]) (fun u _ => rfl)
    (fun u hu => rfl) (fun _ _ h => h) (fun u i _ => hH u i)
    (fun u hu y w hy => ⟨rfl, ((hi.tok u).priv y w hy).2⟩)
    (fun u hu ho => ?_) ?_ (fun u hu => ?_)
  · refine ⟨hi.sh.heap, hi.sh.inj, hi.sh.head, hi.sh.tail, hi.sh.lag, ?_, fun p w hw => ?_, ?_, hi.sh.free,
      hi.sh.vals, hi.sh.q⟩
    · simp only [St.at, hi.sh.ret, List.map_append, List.map_cons, List.map_nil]
      congr 2
      show (h, s.pinnedNow) = ((g.a (g.tp t)).getD 0, s.pinnedNow)
      rw [h1]; rfl
    · simp only [List.mem_append, List.mem_singleton, Prod.mk.injEq] at hw
      rcases hw with hw | ⟨rfl, _⟩
      · exact hi.sh.retOk p w hw
      · exact ⟨h3, h4, (h5 _ (Nat.le_refl _)).1⟩
    · simp only [List.map_append, List.map_cons, List.map_nil]
      refine List.nodup_append.2 ⟨hi.sh.retNodup, by simp, fun x hx y hy => ?_⟩
      simp only [List.mem_singleton] at hy
      subst hy
      exact fun e => hown (e ▸ hx)
  · simp only [List.map_append, List.map_cons, List.map_nil, List.mem_append, List.mem_singleton, not_or]
    exact ⟨(hi.tok u).own ho, (hi.pair u t hu).own ho (by rw [hpc]; rfl)⟩
  · constructor
    · simp only [St.at, upd_same]
      exact ⟨h2, hH t _ hpin h5⟩
    · simp only [St.at, upd_same]; exact fun _ => hpin
    · simp only [St.at, upd_same]; exact hok.now
    · simp only [St.at, upd_same]
      intro y w hy
      exact absurd hy (by simp [privOf])
    · simp only [St.at, upd_same, owns]; exact fun h => absurd h (by decide)
    · simp only [St.at, upd_same]
      have := hok.abs
      rw [hpc] at this
      exact this
  · constructor
    · simp only [St.at, upd_same, upd_other _ _ hu]
      intro y w z w' hy
      exact absurd hy (by simp [privOf])
    · simp only [St.at, upd_same, owns]; exact fun h => absurd h (by decide)

theorem step_pin {s : St α} {g : Gh α} {a : ASt (List α) (Op α) (Ret α)} (hi : Inv s g a) {t : Tid} :
    Inv { s with pinnedNow := t :: s.pinnedNow, thr := upd s.thr t ⟨true, (s.thr t).pc⟩ } g a := by
  have hok := hi.tok t
  refine hi.move t ⟨hi.sh.heap, hi.sh.inj, hi.sh.head, hi.sh.tail, hi.sh.lag, hi.sh.ret, hi.sh.retOk, hi.sh.retNodup,
      hi.sh.free, hi.sh.vals, hi.sh.q⟩ (Grows.refl g) (fun u hu => by simp [hu]) (fun u _ => rfl)
    (fun u hu => rfl) (fun _ _ h => List.mem_cons_of_mem _ h) (fun _ _ _ _ h => h)
    (fun u hu y w hy => ⟨rfl, ((hi.tok u).priv y w hy).2⟩)
    (fun u hu ho => (hi.tok u).own ho) ?_ (fun u hu => ?_)
  · constructor
    · simp only [upd_same]; exact hok.ok
    · simp only [upd_same]; exact fun _ => trivial
    · simp only [upd_same]; exact fun _ => List.mem_cons_self
    · simp only [upd_same]; exact hok.priv
    · simp only [upd_same]; exact hok.own
    · simp only [upd_same]; exact hok.abs
  · have := hi.pair t u (Ne.symm hu)
    constructor
    · simp only [upd_same, upd_other _ _ hu]; exact this.priv
    · simp only [upd_same, upd_other _ _ hu]; exact this.own

theorem step_unpin {s : St α} {g : Gh α} {a : ASt (List α) (Op α) (Ret α)} (hi : Inv s g a) {t : Tid}
    (hpc : (s.thr t).pc = .idle) :
    Inv { s with pinnedNow := s.pinnedNow.filter (· ≠ t)
                 retired := s.retired.map fun x => (x.1, x.2.filter (· ≠ t))
                 thr := upd s.thr t ⟨false, .idle⟩ }
      { g with R := g.R.map fun x => (x.1, x.2.filter (· ≠ t)) } a := by
  have hok := hi.tok t
  have hfst : (g.R.map fun x => (x.1, x.2.filter (· ≠ t))).map (·.1) = g.R.map (·.1) := by
    rw [List.map_map]; rfl
  have hmem : ∀ p w, (p, w) ∈ (g.R.map fun x => (x.1, x.2.filter (· ≠ t))) →
      ∃ w', (p, w') ∈ g.R ∧ w = w'.filter (· ≠ t) := by
    intro p w h
    obtain ⟨⟨p', w'⟩, h1, h2⟩ := List.mem_map.1 h
    simp only [Prod.mk.injEq] at h2
    obtain ⟨rfl, rfl⟩ := h2
    exact ⟨w', h1, rfl⟩
  refine hi.move t ⟨hi.sh.heap, hi.sh.inj, hi.sh.head, hi.sh.tail, hi.sh.lag, ?_, fun p w h => ?_, ?_,
      hi.sh.free, hi.sh.vals, hi.sh.q⟩ ⟨fun _ _ h => h, Nat.le_refl _, Nat.le_refl _⟩ (fun u hu => by simp [hu])
    (fun u _ => rfl)
    (fun u hu => rfl) (fun u hu h => by simp [h, hu]) (fun u i hu _ h => ?_)
    (fun u hu y w hy => ⟨rfl, ((hi.tok u).priv y w hy).2⟩)
    (fun u hu ho => by simp only [hfst]; exact (hi.tok u).own ho) ?_ (fun u hu => ?_)
  · simp only [hi.sh.ret, List.map_map]; rfl
  · obtain ⟨w', h1, _⟩ := hmem p w h
    exact hi.sh.retOk p w' h1
  · simp only [hfst]; exact hi.sh.retNodup
  · intro p hp
    refine ⟨(h p hp).1, fun w hw => ?_⟩
    obtain ⟨w', h1, rfl⟩ := hmem p w hw
    simp [(h p hp).2 w' h1, hu]
  · constructor
    · simp only [upd_same]; trivial
    · simp only [upd_same]; exact fun h => absurd h (by simp [busy])
    · simp only [upd_same]; exact fun h => absurd h (by decide)
    · simp only [upd_same]; exact fun x v h => absurd h (by simp [privOf])
    · simp only [upd_same]; exact fun h => absurd h (by simp [owns])
    · simp only [upd_same]
      have := hok.abs
      rw [hpc] at this
      exact this
  · constructor
    · simp only [upd_same]; exact fun x v _ _ h => absurd h (by simp [privOf])
    · simp only [upd_same]; exact fun h => absurd h (by simp [owns])

theorem eraseIdx_map' {β γ : Type} (f : β → γ) : ∀ (l : List β) (k : Nat), (l.map f).eraseIdx k = (l.eraseIdx k).map f
  | [], _ => rfl
  | _ :: _, 0 => rfl
  | x :: l, k + 1 => by simp only [List.map_cons, List.eraseIdx_cons_succ, eraseIdx_map' f l k]

theorem not_mem_eraseIdx {β γ : Type} {f : β → γ} : ∀ {l : List β} {k : Nat} {x : β}, (l.map f).Nodup → l[k]? = some x →
    f x ∉ (l.eraseIdx k).map f
  | [], _, _, _, h => by simp at h
  | y :: l, 0, x, hn, h => by
    simp only [List.getElem?_cons_zero, Option.some.injEq] at h
    subst h
    simp only [List.map_cons, List.nodup_cons] at hn
    simpa using hn.1
  | y :: l, k + 1, x, hn, h => by
    simp only [List.getElem?_cons_succ] at h
    simp only [List.map_cons, List.nodup_cons] at hn
    simp only [List.eraseIdx_cons_succ, List.map_cons, List.mem_cons, not_or]
    refine ⟨fun e => hn.1 (e ▸ List.mem_map.2 ⟨x, List.mem_of_getElem? h, rfl⟩), not_mem_eraseIdx hn.2 h⟩

theorem step_reclaim {s : St α} {g : Gh α} {a : ASt (List α) (Op α) (Ret α)} (hi : Inv s g a) {k : Nat} {x : Addr}
    (hk : s.retired[k]? = some (x, [])) :
    ∃ g', Inv { s with heap := setHeap s.heap x none, retired := s.retired.eraseIdx k } g' a := by
  rw [hi.sh.ret, List.getElem?_map, Option.map_eq_some_iff] at hk
  obtain ⟨⟨p, w⟩, hk, hx⟩ := hk
  simp only [Prod.mk.injEq] at hx
  obtain ⟨hx, rfl⟩ := hx
  have hmem : (p, []) ∈ g.R := List.mem_of_getElem? hk
  obtain ⟨r1, r2, r3⟩ := hi.sh.retOk p [] hmem
  have hHlt := a_lt hi.sh.head
  have hx : g.a p = some x := by
    cases hc : g.a p with
    | none => have := a_none hc; omega
    | some y => rw [hc] at hx; exact congrArg some hx
  have hsub : ∀ y, y ∈ g.R.eraseIdx k → y ∈ g.R := fun y => List.mem_of_mem_eraseIdx
  have hsub' : ∀ q, q ∈ (g.R.eraseIdx k).map (·.1) → q ∈ g.R.map (·.1) := by
    intro q hq
    obtain ⟨y, h1, h2⟩ := List.mem_map.1 hq
    exact List.mem_map.2 ⟨y, hsub y h1, h2⟩
  have hnp : p ∉ (g.R.eraseIdx k).map (·.1) := not_mem_eraseIdx hi.sh.retNodup hk
  refine ⟨{ g with F := p :: g.F, R := g.R.eraseIdx k }, ?_, fun u => ?_, fun u v huv => ?_⟩
  · refine ⟨fun q y hy hf => ?_, fun q q' y hy hy' hf hf' => ?_, hi.sh.head, hi.sh.tail, hi.sh.lag, ?_, fun q w hw => ?_,
      ?_, fun q hq => ?_, hi.sh.vals, hi.sh.q⟩
    · simp only [List.mem_cons, not_or] at hf
      have hya : g.a q = some y.1 := by simp only at hy; rw [Gh.a, hy]; rfl
      have : y.1 ≠ x := fun e => hf.1 (hi.sh.inj q p x (by rw [hya, e]) hx hf.2 r3)
      simp only [setHeap, this, if_false]
      exact hi.sh.heap q y hy hf.2
    · simp only [List.mem_cons, not_or] at hf hf'
      exact hi.sh.inj q q' y hy hy' hf.2 hf'.2
    · simp only [hi.sh.ret, eraseIdx_map']; rfl
    · have := hi.sh.retOk q w (hsub _ hw)
      refine ⟨this.1, this.2.1, ?_⟩
      simp only [List.mem_cons, not_or]
      refine ⟨?_, this.2.2⟩
      rintro rfl
      exact hnp (List.mem_map.2 ⟨_, hw, rfl⟩)
    · refine List.Nodup.sublist ?_ hi.sh.retNodup
      exact (List.eraseIdx_sublist _ _).map _
    · rcases List.mem_cons.1 hq with rfl | hq
      · exact ⟨r1, r2⟩
      · exact hi.sh.free q hq
  · refine (hi.tok u).mono ⟨fun _ _ h => h, Nat.le_refl _, Nat.le_refl _⟩ rfl rfl rfl id (fun i _ h => ?_)
      (fun y v hy => ?_) (fun ho hm => (hi.tok u).own ho (hsub' _ hm))
    · intro q hq
      refine ⟨?_, fun w hw => (h q hq).2 w (hsub _ hw)⟩
      simp only [List.mem_cons, not_or]
      refine ⟨?_, (h q hq).1⟩
      rintro rfl
      exact absurd ((h q hq).2 _ hmem) (by simp)
    · have h2 := ((hi.tok u).priv y v hy).2
      refine ⟨?_, fun q hq => h2 q (fun h => hq (List.mem_cons_of_mem _ h))⟩
      have : y ≠ x := fun e => h2 p r3 (by rw [hx, e])
      simp only [setHeap, this, if_false]
  · exact (hi.pair u v huv).mono rfl rfl rfl rfl

/-- Every step keeps the invariant. -/
theorem step {s s' : St α} {g : Gh α} {a : ASt (List α) (Op α) (Ret α)} {x : Act α} {o : Option (Ev (Op α) (Ret α))}
    (hi : Inv s g a) (h : exec s x = some (s', o)) : ∃ g' a', Inv s' g' a' ∧ Next a o a' := by
  cases x with
  | pin t =>
    simp only [exec] at h
    by_cases hp : (s.thr t).pinned = true
    · simp [hp] at h
    · simp only [hp, if_false, Option.some.injEq, Prod.mk.injEq, Bool.false_eq_true] at h
      obtain ⟨rfl, rfl⟩ := h
      exact ⟨g, a, step_pin hi, .inl ⟨rfl, rfl⟩⟩
  | unpin t =>
    simp only [exec] at h
    cases hpc : (s.thr t).pc <;> simp only [hpc] at h <;> try contradiction
    by_cases hp : (s.thr t).pinned = true
    · simp only [hp, if_true, Option.some.injEq, Prod.mk.injEq] at h
      obtain ⟨rfl, rfl⟩ := h
      exact ⟨_, a, step_unpin hi hpc, .inl ⟨rfl, rfl⟩⟩
    · simp [hp] at h
  | call t op =>
    simp only [exec] at h
    cases hpc : (s.thr t).pc <;> simp only [hpc] at h <;> try contradiction
    by_cases hp : (s.thr t).pinned = true
    · simp only [hp, if_true, Option.some.injEq, Prod.mk.injEq] at h
      obtain ⟨rfl, rfl⟩ := h
      have hab := (hi.tok t).abs
      rw [hpc] at hab
      refine ⟨_, _, hi.quiet t _ 0 (.pend op) (fun _ => hp) ?_ ?_ ?_ ?_, .inr (.call hab)⟩ <;> cases op
      · trivial
      · trivial
      · exact fun _ h => absurd h (by simp [privOf])
      · exact fun _ h => absurd h (by simp [privOf])
      · exact fun h => absurd h (by simp [owns])
      · exact fun h => absurd h (by simp [owns])
      · rfl
      · rfl
    · simp [hp] at h
  | reclaim k =>
    simp only [exec] at h
    rcases hk : s.retired[k]? with _ | ⟨y, _ | ⟨w, ws⟩⟩ <;> simp only [hk] at h <;> try contradiction
    simp only [Option.some.injEq, Prod.mk.injEq] at h
    obtain ⟨rfl, rfl⟩ := h
    obtain ⟨g', hg'⟩ := step_reclaim hi hk
    exact ⟨g', a, hg', .inl ⟨rfl, rfl⟩⟩
  | go t y =>
    simp only [exec] at h
    have hok := (hi.tok t).ok
    have hab := (hi.tok t).abs
    have hpin := (hi.tok t).pin
    cases hpc : (s.thr t).pc with
    | idle => simp [hpc, goPc] at h
    | fault => simp [hpc, goPc] at h
    | e0 v =>
      simp only [hpc, goPc] at h
      cases hy : s.heap y with
      | some _ => simp [hy] at h
      | none =>
        simp only [hy, Option.some.injEq, Prod.mk.injEq] at h
        obtain ⟨rfl, rfl⟩ := h
        exact ⟨g, a, step_alloc hi hpc hy, .inl ⟨rfl, rfl⟩⟩
    | e1 v new =>
      rw [hpc] at hok hab hpin
      simp only [hpc, goPc, Option.some.injEq, Prod.mk.injEq] at h
      obtain ⟨rfl, rfl⟩ := h
      exact hi.quiet0 t _ g.T (fun _ => hpin rfl) ⟨hi.sh.tail, Nat.le_refl _, holds_tail hi.sh t⟩
        (fun x hx => by rw [hpc]; exact hx) (fun h => absurd h (by simp [owns])) hab
    | e2 v new tl =>
      rw [hpc] at hok hab hpin
      obtain ⟨h1, h2, h3⟩ := hok
      obtain ⟨w, hw, hr⟩ := hi.sh.read h3 (Nat.le_refl _) h1
      simp only [hpc, goPc, St.loadNext, hr, Option.map_some] at h
      cases hn : g.a (g.tp t + 1) with
      | none =>
        simp only [hn, Option.some.injEq, Prod.mk.injEq] at h
        obtain ⟨rfl, rfl⟩ := h
        exact hi.quiet0 t _ (g.tp t) (fun _ => hpin rfl) ⟨h1, h2, h3⟩
          (fun x hx => by rw [hpc]; exact hx) (fun h => absurd h (by simp [owns])) hab
      | some n =>
        simp only [hn, Option.some.injEq, Prod.mk.injEq] at h
        obtain ⟨rfl, rfl⟩ := h
        exact hi.quiet0 t _ (g.tp t) (fun _ => hpin rfl) ⟨h1, hn, h2, h3⟩
          (fun x hx => by rw [hpc]; exact hx) (fun h => absurd h (by simp [owns])) hab
    | e3 v new tl =>
      rw [hpc] at hok hab hpin
      obtain ⟨h1, h2, h3⟩ := hok
      obtain ⟨w, hw, hr⟩ := hi.sh.read h3 (Nat.le_refl _) h1
      simp only [hpc, goPc, hr] at h
      cases hn : g.a (g.tp t + 1) with
      | none =>
        simp only [hn, Option.some.injEq, Prod.mk.injEq] at h
        obtain ⟨rfl, rfl⟩ := h
        have := step_link hi hpc hr hn
        exact ⟨_, _, this, .inr (AStep.lin (O := fifo) hab)⟩
      | some n =>
        simp only [hn, Option.some.injEq, Prod.mk.injEq] at h
        obtain ⟨rfl, rfl⟩ := h
        exact hi.quiet0 t _ (g.tp t) (fun _ => hpin rfl) trivial
          (fun x hx => by rw [hpc]; exact hx) (fun h => absurd h (by simp [owns])) hab
    | e4 new tl =>
      rw [hpc] at hok hab hpin
      obtain ⟨h1, h2, h3, h4⟩ := hok
      simp only [hpc, goPc, Option.some.injEq, Prod.mk.injEq] at h
      obtain ⟨rfl, rfl⟩ := h
      have hi' := hi.casTail h4 h1 h2
      refine hi'.quiet0 t _ (g.tp t) (fun _ => by rw [casTail_thr]; exact hpin rfl) trivial
        (fun x hx => absurd hx (by simp [privOf])) (fun h => absurd h (by simp [owns])) hab
    | e5 v new tl n =>
      rw [hpc] at hok hab hpin
      obtain ⟨h1, h2, h3, h4⟩ := hok
      simp only [hpc, goPc, Option.some.injEq, Prod.mk.injEq] at h
      obtain ⟨rfl, rfl⟩ := h
      have hi' := hi.casTail h4 h1 h2
      refine hi'.quiet0 t _ (g.tp t) (fun _ => by rw [casTail_thr]; exact hpin rfl) trivial
        (fun x hx => by rw [casTail_thr, hpc]; exact hx) (fun h => absurd h (by simp [owns])) hab
    | eret =>
      rw [hpc] at hok hab hpin
      simp only [hpc, goPc, Option.some.injEq, Prod.mk.injEq] at h
      obtain ⟨rfl, rfl⟩ := h
      exact ⟨_, _, hi.quiet t _ 0 .idle (fun h => absurd h (by simp [busy])) trivial
        (fun x hx => absurd hx (by simp [privOf])) (fun h => absurd h (by simp [owns])) rfl, .inr (.ret hab)⟩
    | d1 =>
      rw [hpc] at hok hab hpin
      simp only [hpc, goPc, Option.some.injEq, Prod.mk.injEq] at h
      obtain ⟨rfl, rfl⟩ := h
      exact hi.quiet0 t _ g.H (fun _ => hpin rfl) ⟨hi.sh.head, Nat.le_refl _, holds_head hi.sh t⟩
        (fun x hx => absurd hx (by simp [privOf])) (fun h => absurd h (by simp [owns])) hab
    | d2 hd =>
      rw [hpc] at hok hab hpin
      obtain ⟨h1, h2, h3⟩ := hok
      obtain ⟨w, hw, hr⟩ := hi.sh.read h3 (Nat.le_refl _) h1
      simp only [hpc, goPc, St.loadNext, hr, Option.map_some] at h
      cases hn : g.a (g.tp t + 1) with
      | none =>
        simp only [hn, Option.some.injEq, Prod.mk.injEq] at h
        obtain ⟨rfl, rfl⟩ := h
        have hlen := a_none hn
        have hq : a.q = [] := by
          have := hi.sh.q
          rw [List.drop_eq_nil_of_le (by omega)] at this
          simpa using this.symm
        have hl := AStep.lin (O := fifo) hab
        simp only [fifo, hq, List.tail_nil, List.head?_nil] at hl
        have := hi.quiet t (.dret none) 0 (.done (.val none)) (fun _ => hpin rfl) trivial
          (fun x hx => absurd hx (by simp [privOf])) (fun h => absurd h (by simp [owns])) rfl
        rw [hq] at this
        exact ⟨_, _, this, .inr hl⟩
      | some n =>
        simp only [hn, Option.some.injEq, Prod.mk.injEq] at h
        obtain ⟨rfl, rfl⟩ := h
        exact hi.quiet0 t _ (g.tp t) (fun _ => hpin rfl) ⟨h1, hn, h3⟩
          (fun x hx => absurd hx (by simp [privOf])) (fun h => absurd h (by simp [owns])) hab
    | d3 hd n =>
      rw [hpc] at hok hab hpin
      simp only [hpc, goPc] at h
      by_cases hh : s.head = hd
      · simp only [hh, if_true, Option.some.injEq, Prod.mk.injEq] at h
        obtain ⟨rfl, rfl⟩ := h
        obtain ⟨v, q', hq, hi'⟩ := step_head hi hpc hh
        refine ⟨_, _, hi', .inr ?_⟩
        have := AStep.lin (O := fifo) hab
        simp only [fifo, hq, List.tail_cons, List.head?_cons] at this
        exact this
      · simp only [hh, if_false, Option.some.injEq, Prod.mk.injEq] at h
        obtain ⟨rfl, rfl⟩ := h
        exact hi.quiet0 t _ (g.tp t) (fun _ => hpin rfl) trivial
          (fun x hx => absurd hx (by simp [privOf])) (fun h => absurd h (by simp [owns])) hab
    | d4 hd n =>
      rw [hpc] at hok hab hpin
      obtain ⟨h1, h2, h3, h4⟩ := hok
      simp only [hpc, goPc] at h
      by_cases hh : s.tail = hd
      · simp only [hh, if_true, Option.some.injEq, Prod.mk.injEq] at h
        obtain ⟨rfl, rfl⟩ := h
        exact hi.quiet0 t _ (g.tp t) (fun _ => hpin rfl) ⟨h1, h2, h3, h4⟩
          (fun x hx => absurd hx (by simp [privOf])) (fun _ => ⟨by rw [hpc]; rfl, rfl⟩) hab
      · simp only [hh, if_false, Option.some.injEq, Prod.mk.injEq] at h
        obtain ⟨rfl, rfl⟩ := h
        have e : g.T ≠ g.tp t := fun e => hh ((hi.sh.tail_eq h4 h1).2 e)
        have := hi.sh.lag
        have := a_lt h2
        exact hi.quiet0 t _ (g.tp t) (fun _ => hpin rfl) ⟨h1, h2, h3, by omega, h4⟩
          (fun x hx => absurd hx (by simp [privOf])) (fun _ => ⟨by rw [hpc]; rfl, rfl⟩) hab
    | d5 hd n =>
      rw [hpc] at hok hab hpin
      obtain ⟨h1, h2, h3, h4⟩ := hok
      simp only [hpc, goPc, Option.some.injEq, Prod.mk.injEq] at h
      obtain ⟨rfl, rfl⟩ := h
      have hi' := hi.casTail h4 h1 h2
      have := hi.sh.lag
      have := a_lt h2
      refine hi'.quiet0 t _ (g.tp t) (fun _ => by rw [casTail_thr]; exact hpin rfl)
        ⟨h1, h2, h3, by simp only; split <;> omega, h4⟩
        (fun x hx => absurd hx (by simp [privOf])) (fun _ => ⟨by rw [casTail_thr, hpc]; rfl, rfl⟩) hab
    | d6 hd n =>
      simp only [hpc, goPc, Option.some.injEq, Prod.mk.injEq] at h
      obtain ⟨rfl, rfl⟩ := h
      exact ⟨_, a, step_retire hi hpc, .inl ⟨rfl, rfl⟩⟩
    | d7 n =>
      rw [hpc] at hok hab hpin
      obtain ⟨h1, h3⟩ := hok
      obtain ⟨v, hv, hb⟩ := hab
      have hr := hi.sh.heap _ _ hv (h3 _ (Nat.le_succ _)).1
      simp only [hpc, goPc, hr, Option.some.injEq, Prod.mk.injEq] at h
      obtain ⟨rfl, rfl⟩ := h
      exact hi.quiet0 t _ (g.tp t) (fun _ => hpin rfl) trivial
        (fun x hx => absurd hx (by simp [privOf])) (fun h => absurd h (by simp [owns])) hb
    | dret v =>
      rw [hpc] at hok hab hpin
      simp only [hpc, goPc, Option.some.injEq, Prod.mk.injEq] at h
      obtain ⟨rfl, rfl⟩ := h
      exact ⟨_, _, hi.quiet t _ 0 .idle (fun h => absurd h (by simp [busy])) trivial
        (fun x hx => absurd hx (by simp [privOf])) (fun h => absurd h (by simp [owns])) rfl, .inr (.ret hab)⟩

end Verif.Queue
