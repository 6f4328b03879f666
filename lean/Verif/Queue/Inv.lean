/-
What holds in every reachable state of the queue. Every node that was ever linked has a position; `head` and `tail` are
positions; a node is retired only when both have passed it; a thread keeps alive everything from the position
of its pointer on.
-/
import Verif.Queue.Model
namespace Verif.Queue
open Verif.Conc
variable {α : Type}

/-- What the proof knows about the memory: all nodes ever linked in order (address and value), the positions of `head`
and `tail`, the positions that are retired (with the threads still pinned) and freed, and the position of the
pointer each thread works with. -/
structure Gh (α : Type) where
  L : List (Addr × Option α)
  H : Nat
  T : Nat
  R : List (Nat × List Tid)
  F : List Nat
  tp : Tid → Nat

/-- The address at a position. -/
def Gh.a (g : Gh α) (p : Nat) : Option Addr := (g.L[p]?).map (·.1)

/-- Nothing from position `i` on is freed or will be while thread `t` is pinned. -/
def Holds (g : Gh α) (t : Tid) (i : Nat) : Prop :=
  ∀ p, i ≤ p → p ∉ g.F ∧ ∀ w, (p, w) ∈ g.R → t ∈ w

/-- What the locals of a thread mean; `i` is the position of its pointer. -/
def PcOk (g : Gh α) (t : Tid) (i : Nat) : Pc α → Prop
  | .idle => True
  | .e0 _ => True
  | .e1 _ _ => True
  | .e2 _ _ tl => g.a i = some tl ∧ i ≤ g.T ∧ Holds g t i
  | .e3 _ _ tl => g.a i = some tl ∧ i ≤ g.T ∧ Holds g t i
  | .e4 new tl => g.a i = some tl ∧ g.a (i + 1) = some new ∧ i ≤ g.T ∧ Holds g t i
  | .e5 _ _ tl n => g.a i = some tl ∧ g.a (i + 1) = some n ∧ i ≤ g.T ∧ Holds g t i
  | .eret => True
  | .d1 => True
  | .d2 h => g.a i = some h ∧ i ≤ g.H ∧ Holds g t i
  | .d3 h n => g.a i = some h ∧ g.a (i + 1) = some n ∧ Holds g t i
  | .d4 h n => g.a i = some h ∧ g.a (i + 1) = some n ∧ i < g.H ∧ Holds g t i
  | .d5 h n => g.a i = some h ∧ g.a (i + 1) = some n ∧ i < g.H ∧ Holds g t i
  | .d6 h n => g.a i = some h ∧ g.a (i + 1) = some n ∧ i < g.H ∧ i < g.T ∧ Holds g t i
  | .d7 n => g.a (i + 1) = some n ∧ Holds g t i
  | .dret _ => True
  | .fault => False

/-- The indivisible queue: an enqueue happens when the node is linked, a dequeue when `head` moves or when
`head.next` is seen to be null. -/
def AbsOk (g : Gh α) (i : Nat) : Pc α → AThr (Op α) (Ret α) → Prop
  | .idle, b => b = .idle
  | .e0 v, b => b = .pend (.enq v)
  | .e1 v _, b => b = .pend (.enq v)
  | .e2 v _ _, b => b = .pend (.enq v)
  | .e3 v _ _, b => b = .pend (.enq v)
  | .e5 v _ _ _, b => b = .pend (.enq v)
  | .e4 _ _, b => b = .done .unit
  | .eret, b => b = .done .unit
  | .d1, b => b = .pend .deq
  | .d2 _, b => b = .pend .deq
  | .d3 _ _, b => b = .pend .deq
  | .d4 _ n, b => ∃ v, g.L[i + 1]? = some (n, some v) ∧ b = .done (.val (some v))
  | .d5 _ n, b => ∃ v, g.L[i + 1]? = some (n, some v) ∧ b = .done (.val (some v))
  | .d6 _ n, b => ∃ v, g.L[i + 1]? = some (n, some v) ∧ b = .done (.val (some v))
  | .d7 n, b => ∃ v, g.L[i + 1]? = some (n, some v) ∧ b = .done (.val (some v))
  | .dret v, b => b = .done (.val v)
  | .fault, _ => False

/-- The node an enqueue has allocated and not linked. -/
def privOf : Pc α → Option (Addr × α)
  | .e1 v new => some (new, v)
  | .e2 v new _ => some (new, v)
  | .e3 v new _ => some (new, v)
  | .e5 v new _ _ => some (new, v)
  | _ => none

/-- The thread moved `head` away from its node and has not retired it. -/
def owns : Pc α → Bool
  | .d4 _ _ => true
  | .d5 _ _ => true
  | .d6 _ _ => true
  | _ => false

/-- Between operations a thread need not be pinned. -/
def busy : Pc α → Bool
  | .idle => false
  | _ => true

structure TOk (s : St α) (g : Gh α) (a : ASt (List α) (Op α) (Ret α)) (t : Tid) : Prop where
  ok : PcOk g t (g.tp t) (s.thr t).pc
  pin : busy (s.thr t).pc = true → (s.thr t).pinned = true
  now : (s.thr t).pinned = true → t ∈ s.pinnedNow
  priv : ∀ x v, privOf (s.thr t).pc = some (x, v) → s.heap x = some ⟨some v, none⟩ ∧ ∀ p, p ∉ g.F → g.a p ≠ some x
  own : owns (s.thr t).pc = true → g.tp t ∉ g.R.map (·.1)
  abs : AbsOk g (g.tp t) (s.thr t).pc (a.thr t)

structure Pair (s : St α) (g : Gh α) (t u : Tid) : Prop where
  priv : ∀ x v y w, privOf (s.thr t).pc = some (x, v) → privOf (s.thr u).pc = some (y, w) → x ≠ y
  own : owns (s.thr t).pc = true → owns (s.thr u).pc = true → g.tp t ≠ g.tp u

structure Shared (s : St α) (g : Gh α) (q : List α) : Prop where
  heap : ∀ (p : Nat) (x : Addr × Option α), g.L[p]? = some x → p ∉ g.F → s.heap x.1 = some ⟨x.2, g.a (p + 1)⟩
  inj : ∀ p p' x, g.a p = some x → g.a p' = some x → p ∉ g.F → p' ∉ g.F → p = p'
  head : g.a g.H = some s.head
  tail : g.a g.T = some s.tail
  lag : g.L.length ≤ g.T + 2
  ret : s.retired = g.R.map fun x => ((g.a x.1).getD 0, x.2)
  retOk : ∀ p w, (p, w) ∈ g.R → p < g.H ∧ p < g.T ∧ p ∉ g.F
  retNodup : (g.R.map (·.1)).Nodup
  free : ∀ p ∈ g.F, p < g.H ∧ p < g.T
  vals : ∀ (p : Nat) (x : Addr × Option α), g.L[p + 1]? = some x → x.2 ≠ none
  q : (g.L.drop (g.H + 1)).map (·.2) = q.map some

structure Inv (s : St α) (g : Gh α) (a : ASt (List α) (Op α) (Ret α)) : Prop where
  sh : Shared s g a.q
  tok : ∀ t, TOk s g a t
  pair : ∀ t u, t ≠ u → Pair s g t u

/-! ## How a thread sees the steps of others -/

/-- The positions known so far stay as they are. -/
structure Grows (g g' : Gh α) : Prop where
  L : ∀ (p : Nat) (x : Addr × Option α), g.L[p]? = some x → g'.L[p]? = some x
  H : g.H ≤ g'.H
  T : g.T ≤ g'.T

theorem Grows.a {g g' : Gh α} (h : Grows g g') {p : Nat} {x : Addr} (hx : g.a p = some x) : g'.a p = some x := by
  simp only [Gh.a, Option.map_eq_some_iff] at hx ⊢
  obtain ⟨y, hy, rfl⟩ := hx
  exact ⟨y, h.L p y hy, rfl⟩

theorem Grows.refl (g : Gh α) : Grows g g := ⟨fun _ _ h => h, Nat.le_refl _, Nat.le_refl _⟩

theorem PcOk.mono {g g' : Gh α} (h : Grows g g') {t : Tid} {i : Nat} (hh : Holds g t i → Holds g' t i) {pc : Pc α}
    (hp : PcOk g t i pc) : PcOk g' t i pc := by
  have hT := h.T
  have hH := h.H
  cases pc with
  | idle | e0 | e1 | eret | d1 | dret => trivial
  | fault => exact hp
  | e2 => exact ⟨h.a hp.1, by have := hp.2.1; omega, hh hp.2.2⟩
  | e3 => exact ⟨h.a hp.1, by have := hp.2.1; omega, hh hp.2.2⟩
  | e4 => exact ⟨h.a hp.1, h.a hp.2.1, by have := hp.2.2.1; omega, hh hp.2.2.2⟩
  | e5 => exact ⟨h.a hp.1, h.a hp.2.1, by have := hp.2.2.1; omega, hh hp.2.2.2⟩
  | d2 => exact ⟨h.a hp.1, by have := hp.2.1; omega, hh hp.2.2⟩
  | d3 => exact ⟨h.a hp.1, h.a hp.2.1, hh hp.2.2⟩
  | d4 => exact ⟨h.a hp.1, h.a hp.2.1, by have := hp.2.2.1; omega, hh hp.2.2.2⟩
  | d5 => exact ⟨h.a hp.1, h.a hp.2.1, by have := hp.2.2.1; omega, hh hp.2.2.2⟩
  | d6 => exact ⟨h.a hp.1, h.a hp.2.1, by have := hp.2.2.1; omega, by have := hp.2.2.2.1; omega, hh hp.2.2.2.2⟩
  | d7 => exact ⟨h.a hp.1, hh hp.2⟩

theorem AbsOk.mono {g g' : Gh α} (h : Grows g g') {i : Nat} {pc : Pc α} {b : AThr (Op α) (Ret α)}
    (hp : AbsOk g i pc b) : AbsOk g' i pc b := by
  cases pc with
  | d4 | d5 | d6 | d7 =>
    obtain ⟨v, h1, h2⟩ := hp
    exact ⟨v, h.L _ _ h1, h2⟩
  | idle | e0 | e1 | e2 | e3 | e4 | e5 | eret | d1 | d2 | d3 | dret | fault => exact hp

theorem TOk.mono {s s' : St α} {g g' : Gh α} {a a' : ASt (List α) (Op α) (Ret α)} {u : Tid} (h : TOk s g a u)
    (hg : Grows g g') (hthr : s'.thr u = s.thr u) (htp : g'.tp u = g.tp u) (hab : a'.thr u = a.thr u)
    (hnow : u ∈ s.pinnedNow → u ∈ s'.pinnedNow)
    (hh : ∀ i, (s.thr u).pinned = true → Holds g u i → Holds g' u i)
    (hpriv : ∀ x v, privOf (s.thr u).pc = some (x, v) → s'.heap x = s.heap x ∧ ∀ p, p ∉ g'.F → g'.a p ≠ some x)
    (hown : owns (s.thr u).pc = true → g.tp u ∉ g'.R.map (·.1)) : TOk s' g' a' u where
  ok := by
    rw [hthr, htp]
    by_cases hb : busy (s.thr u).pc = true
    · exact h.ok.mono hg (hh _ (h.pin hb))
    · cases hp : (s.thr u).pc <;> simp [hp, busy] at hb
      trivial
  pin := by rw [hthr]; exact h.pin
  now := by rw [hthr]; exact fun hp => hnow (h.now hp)
  priv := by
    rw [hthr]
    intro x v hx
    have h1 := h.priv x v hx
    have h2 := hpriv x v hx
    exact ⟨by rw [h2.1]; exact h1.1, h2.2⟩
  own := by rw [hthr, htp]; exact hown
  abs := by rw [hthr, htp, hab]; exact h.abs.mono hg

theorem Pair.symm {s : St α} {g : Gh α} {t u : Tid} (h : Pair s g t u) : Pair s g u t :=
  ⟨fun x v y w hx hy e => h.priv y w x v hy hx e.symm, fun h1 h2 e => h.own h2 h1 e.symm⟩

theorem Pair.mono {s s' : St α} {g g' : Gh α} {t u : Tid} (h : Pair s g t u) (ht : s'.thr t = s.thr t)
    (hu : s'.thr u = s.thr u) (gt : g'.tp t = g.tp t) (gu : g'.tp u = g.tp u) : Pair s' g' t u :=
  ⟨by rw [ht, hu]; exact h.priv, by rw [ht, hu, gt, gu]; exact h.own⟩

/-- Putting the pieces together after a step of thread `t`. -/
theorem Inv.move {s s' : St α} {g g' : Gh α} {a a' : ASt (List α) (Op α) (Ret α)} (hi : Inv s g a) (t : Tid)
    (hsh : Shared s' g' a'.q) (hg : Grows g g')
    (hthr : ∀ u, u ≠ t → s'.thr u = s.thr u) (htp : ∀ u, u ≠ t → g'.tp u = g.tp u)
    (hab : ∀ u, u ≠ t → a'.thr u = a.thr u) (hnow : ∀ u, u ≠ t → u ∈ s.pinnedNow → u ∈ s'.pinnedNow)
    (hh : ∀ u i, u ≠ t → (s.thr u).pinned = true → Holds g u i → Holds g' u i)
    (hpriv : ∀ u, u ≠ t → ∀ x v, privOf (s.thr u).pc = some (x, v) →
      s'.heap x = s.heap x ∧ ∀ p, p ∉ g'.F → g'.a p ≠ some x)
    (hown : ∀ u, u ≠ t → owns (s.thr u).pc = true → g.tp u ∉ g'.R.map (·.1))
    (ht : TOk s' g' a' t) (hpair : ∀ u, u ≠ t → Pair s' g' t u) : Inv s' g' a' where
  sh := hsh
  tok u := by
    by_cases e : u = t
    · subst e; exact ht
    · exact (hi.tok u).mono hg (hthr u e) (htp u e) (hab u e) (hnow u e) (fun i => hh u i e) (hpriv u e) (hown u e)
  pair u v huv := by
    by_cases e : u = t
    · subst e; exact hpair v (Ne.symm huv)
    · by_cases e' : v = t
      · subst e'; exact (hpair u e).symm
      · exact (hi.pair u v huv).mono (hthr u e) (hthr v e') (htp u e) (htp v e')

/-- A step that changes only where thread `t` is. -/
theorem Inv.quiet {s : St α} {g : Gh α} {a : ASt (List α) (Op α) (Ret α)} (hi : Inv s g a) (t : Tid) (pc : Pc α)
    (i : Nat) (b : AThr (Op α) (Ret α)) (hb : busy pc = true → (s.thr t).pinned = true) (hok : PcOk g t i pc)
    (hpriv : ∀ x, privOf pc = some x → privOf (s.thr t).pc = some x)
    (hown : owns pc = true → owns (s.thr t).pc = true ∧ i = g.tp t)
    (habs : AbsOk g i pc b) :
    Inv (s.at t pc) { g with tp := upd g.tp t i } ⟨a.q, upd a.thr t b⟩ := by
  have hPc : ∀ u j pc, PcOk g u j pc → PcOk { g with tp := upd g.tp t i } u j pc := by
    intro u j pc h
    exact h.mono ⟨fun _ _ h => h, Nat.le_refl _, Nat.le_refl _⟩ id
  refine hi.move t ⟨hi.sh.heap, hi.sh.inj, hi.sh.head, hi.sh.tail, hi.sh.lag, hi.sh.ret, hi.sh.retOk, hi.sh.retNodup,
      hi.sh.free, hi.sh.vals, hi.sh.q⟩ ⟨fun _ _ h => h, Nat.le_refl _, Nat.le_refl _⟩
    (fun u hu => by simp [St.at, hu]) (fun u hu => by simp [hu]) (fun u hu => by simp [hu]) (fun _ _ h => h)
    (fun u j _ _ h => h) (fun u hu x v hx => ⟨rfl, ((hi.tok u).priv x v hx).2⟩) (fun u _ ho => (hi.tok u).own ho)
    ?_ (fun u hu => ?_)
  · constructor
    · simp only [St.at, upd_same]; exact hPc _ _ _ hok
    · simp only [St.at, upd_same]; exact hb
    · simp only [St.at, upd_same]; exact (hi.tok t).now
    · simp only [St.at, upd_same]
      intro x v hx
      exact (hi.tok t).priv x v (hpriv _ hx)
    · simp only [St.at, upd_same]
      intro ho
      obtain ⟨h1, h2⟩ := hown ho
      rw [h2]; exact (hi.tok t).own h1
    · simp only [St.at, upd_same]
      exact habs.mono ⟨fun _ _ h => h, Nat.le_refl _, Nat.le_refl _⟩
  · have hp := hi.pair t u (Ne.symm hu)
    constructor
    · simp only [St.at, upd_same, upd_other _ _ hu]
      intro x v y w hx hy
      exact hp.priv x v y w (hpriv _ hx) hy
    · simp only [St.at, upd_same, upd_other _ _ hu]
      intro ho hou
      obtain ⟨h1, h2⟩ := hown ho
      rw [h2]; exact hp.own h1 hou

/-! ## Facts about addresses -/

theorem a_some_iff {g : Gh α} {p : Nat} {x : Addr} : g.a p = some x ↔ ∃ v, g.L[p]? = some (x, v) := by
  simp only [Gh.a, Option.map_eq_some_iff]
  constructor
  · rintro ⟨⟨y, v⟩, h, rfl⟩; exact ⟨v, h⟩
  · rintro ⟨v, h⟩; exact ⟨_, h, rfl⟩

theorem a_lt {g : Gh α} {p : Nat} {x : Addr} (h : g.a p = some x) : p < g.L.length := by
  obtain ⟨v, hv⟩ := a_some_iff.1 h
  exact (List.getElem?_eq_some_iff.1 hv).1

theorem a_none {g : Gh α} {p : Nat} (h : g.a p = none) : g.L.length ≤ p := by
  simp only [Gh.a, Option.map_eq_none_iff] at h
  exact List.getElem?_eq_none_iff.1 h

/-- A thread that holds position `i` reads the node there. -/
theorem Shared.read {s : St α} {g : Gh α} {q : List α} (h : Shared s g q) {t : Tid} {i : Nat} {x : Addr}
    (hh : Holds g t i) {j : Nat} (hj : i ≤ j) (hx : g.a j = some x) :
    ∃ v, g.L[j]? = some (x, v) ∧ s.heap x = some ⟨v, g.a (j + 1)⟩ := by
  obtain ⟨v, hv⟩ := a_some_iff.1 hx
  exact ⟨v, hv, h.heap j (x, v) hv (hh j hj).1⟩

theorem holds_head {s : St α} {g : Gh α} {q : List α} (h : Shared s g q) (t : Tid) : Holds g t g.H := by
  intro p hp
  refine ⟨fun hf => ?_, fun w hw => ?_⟩
  · have := (h.free p hf).1; omega
  · have := (h.retOk p w hw).1; omega

theorem holds_tail {s : St α} {g : Gh α} {q : List α} (h : Shared s g q) (t : Tid) : Holds g t g.T := by
  intro p hp
  refine ⟨fun hf => ?_, fun w hw => ?_⟩
  · have := (h.free p hf).2; omega
  · have := (h.retOk p w hw).2.1; omega

/-- The exchange of `tail` succeeds exactly if `tail` is at the position of the thread. -/
theorem Shared.tail_eq {s : St α} {g : Gh α} {q : List α} (h : Shared s g q) {t : Tid} {i : Nat} {x : Addr}
    (hh : Holds g t i) (hx : g.a i = some x) : s.tail = x ↔ g.T = i := by
  constructor
  · rintro rfl
    exact h.inj _ _ _ h.tail hx (holds_tail h t _ (Nat.le_refl _)).1 (hh i (Nat.le_refl _)).1
  · rintro rfl
    have := h.tail
    rw [hx] at this
    exact (Option.some.inj this).symm

theorem Shared.head_eq {s : St α} {g : Gh α} {q : List α} (h : Shared s g q) {t : Tid} {i : Nat} {x : Addr}
    (hh : Holds g t i) (hx : g.a i = some x) : s.head = x ↔ g.H = i := by
  constructor
  · rintro rfl
    exact h.inj _ _ _ h.head hx (holds_head h t _ (Nat.le_refl _)).1 (hh i (Nat.le_refl _)).1
  · rintro rfl
    have := h.head
    rw [hx] at this
    exact (Option.some.inj this).symm

/-- Moving `tail` one position on, if it is at position `i`. -/
theorem Shared.casTail {s : St α} {g : Gh α} {q : List α} (h : Shared s g q) {t : Tid} {i : Nat} {x y : Addr}
    (hh : Holds g t i) (hx : g.a i = some x) (hy : g.a (i + 1) = some y) :
    Shared (s.casTail x y) { g with T := if g.T = i then i + 1 else g.T } q := by
  have e := h.tail_eq hh hx
  by_cases hT : g.T = i
  · simp only [St.casTail, e.2 hT, if_true, hT]
    refine ⟨h.heap, h.inj, h.head, hy, ?_, h.ret, fun p w hw => ?_, h.retNodup, fun p hp => ?_, h.vals, h.q⟩
    · have := h.lag; simp only; omega
    · have := h.retOk p w hw; refine ⟨this.1, ?_, this.2.2⟩; simp only; omega
    · have := h.free p hp; refine ⟨this.1, ?_⟩; simp only; omega
  · have : s.tail ≠ x := fun h' => hT (e.1 h')
    simp only [St.casTail, this, if_false, hT]
    exact h

theorem casTail_thr (s : St α) (x y : Addr) : (s.casTail x y).thr = s.thr := by
  simp only [St.casTail]; split <;> rfl

theorem casTail_heap (s : St α) (x y : Addr) : (s.casTail x y).heap = s.heap := by
  simp only [St.casTail]; split <;> rfl

theorem casTail_now (s : St α) (x y : Addr) : (s.casTail x y).pinnedNow = s.pinnedNow := by
  simp only [St.casTail]; split <;> rfl

theorem Inv.casTail {s : St α} {g : Gh α} {a : ASt (List α) (Op α) (Ret α)} (hi : Inv s g a) {t : Tid} {i : Nat}
    {x y : Addr} (hh : Holds g t i) (hx : g.a i = some x) (hy : g.a (i + 1) = some y) :
    Inv (s.casTail x y) { g with T := if g.T = i then i + 1 else g.T } a := by
  have hg : Grows g { g with T := if g.T = i then i + 1 else g.T } :=
    ⟨fun _ _ h => h, Nat.le_refl _, by dsimp only; split <;> omega⟩
  refine ⟨hi.sh.casTail hh hx hy, fun u => ?_, fun u v huv => ?_⟩
  · refine (hi.tok u).mono hg (by rw [casTail_thr]) rfl rfl (by rw [casTail_now]; exact id) (fun _ _ h => h)
      (fun x v hx => ⟨by rw [casTail_heap], ((hi.tok u).priv x v hx).2⟩) (hi.tok u).own
  · exact (hi.pair u v huv).mono (by rw [casTail_thr]) (by rw [casTail_thr]) rfl rfl

end Verif.Queue
