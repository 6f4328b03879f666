/-
C74: the invariant of the queue under weak memory. See `Verif.Weak.Queue`.
-/
import Verif.Weak.Queue
namespace Verif.Weak.Queue
open Verif.Conc

variable {α : Type}

/-- The first `q` enqueues happened before, and with them that their nodes were linked. -/
def Upto (c : List Ptr) (v : View) (q : Nat) : Prop :=
  ∀ j, j < q → v.ev j = true ∧ ∀ p, c[j]? = some p → 1 ≤ v.nx p

/-- A node of the chain, and all that happened before it was linked. -/
def Knows (c : List Ptr) (v : View) (p : Ptr) (q : Nat) : Prop := c[q]? = some p ∧ v.ini p = true ∧ Upto c v q

/-- If an enqueue happened before, then so did all enqueues before it, and it is seen that the nodes are linked. -/
def Good (c : List Ptr) (v : View) : Prop := ∀ j, v.ev j = true → j + 1 < c.length ∧ Upto c v (j + 1)

/-- More happened before. -/
structure Le (v w : View) : Prop where
  nx : ∀ p, v.nx p ≤ w.nx p
  ini : ∀ p, v.ini p = true → w.ini p = true
  ev : ∀ j, v.ev j = true → w.ev j = true

theorem Le.refl (v : View) : Le v v := ⟨fun _ => Nat.le_refl _, fun _ h => h, fun _ h => h⟩

theorem Upto.mono {c : List Ptr} {v w : View} {q : Nat} (h : Upto c v q) (l : Le v w) : Upto c w q :=
  fun j hj => ⟨l.ev j (h j hj).1, fun p hp => Nat.le_trans ((h j hj).2 p hp) (l.nx p)⟩

theorem Knows.mono {c : List Ptr} {v w : View} {p q : Nat} (h : Knows c v p q) (l : Le v w) : Knows c w p q :=
  ⟨h.1, l.ini p h.2.1, h.2.2.mono l⟩

theorem le_join_left (v w : View) : Le v (v.join w) :=
  ⟨fun p => Nat.le_max_left _ _, fun p h => by simp [View.join, h], fun j h => by simp [View.join, h]⟩

theorem le_join_right (v w : View) : Le w (v.join w) :=
  ⟨fun p => Nat.le_max_right _ _, fun p h => by simp [View.join, h], fun j h => by simp [View.join, h]⟩

theorem Good.join {c : List Ptr} {v w : View} (h : Good c v) (h' : Good c w) : Good c (v.join w) := by
  intro j hj
  simp only [View.join, Bool.or_eq_true] at hj
  rcases hj with hj | hj
  · exact ⟨(h j hj).1, (h j hj).2.mono (le_join_left v w)⟩
  · exact ⟨(h' j hj).1, (h' j hj).2.mono (le_join_right v w)⟩

/-- Nothing more happened before, but more was seen. -/
theorem Good.saw {c : List Ptr} {v w : View} (h : Good c v) (l : Le v w) (e : w.ev = v.ev) : Good c w := by
  intro j hj
  rw [e] at hj
  exact ⟨(h j hj).1, (h j hj).2.mono l⟩

theorem good_bot (c : List Ptr) : Good c .bot := by intro j hj; simp [View.bot] at hj

theorem Good.acquire {c : List Ptr} {v w : View} (h : Good c v) (h' : Good c w) : Good c (v.acquire code.ldTail w) := h.join h'

theorem le_sawNx {v : View} {p : Ptr} {i : Nat} (h : v.nx p ≤ i) : Le v (v.sawNx p i) := by
  refine ⟨fun x => ?_, fun _ h => h, fun _ h => h⟩
  by_cases e : x = p
  · subst e; simpa [View.sawNx] using h
  · simp [View.sawNx, e]

theorem Upto.ext {c : List Ptr} {v : View} {q : Nat} (h : Upto c v q) (hq : q ≤ c.length) (n : Ptr) : Upto (c ++ [n]) v q := by
  intro j hj
  refine ⟨(h j hj).1, fun p hp => (h j hj).2 p ?_⟩
  rw [List.getElem?_append_left (by omega)] at hp
  exact hp

theorem Knows.ext {c : List Ptr} {v : View} {p q : Nat} (h : Knows c v p q) (n : Ptr) : Knows (c ++ [n]) v p q := by
  have hq := (List.getElem?_eq_some_iff.1 h.1).1
  refine ⟨by rw [List.getElem?_append_left hq]; exact h.1, h.2.1, h.2.2.ext (by omega) n⟩

theorem Good.ext {c : List Ptr} {v : View} (h : Good c v) (n : Ptr) : Good (c ++ [n]) v := by
  intro j hj
  refine ⟨by have := (h j hj).1; simp; omega, (h j hj).2.ext (by have := (h j hj).1; omega) n⟩

/-- The node that the thread allocated and has not linked. -/
def Pc.owned : Pc α → Option (Ptr × α)
  | .e1 v n | .e2 v n _ | .e3 v n _ | .e5 v n _ _ => some (n, v)
  | _ => none

/-- The number of the element that the thread took and has not given to its caller. -/
def Pc.took : Pc α → Option Nat
  | .d4 _ _ k | .d5 _ _ k | .d7 _ k => some k
  | _ => none

/-- What the pointers of a thread are. -/
def PcOk (c : List Ptr) (outs : Nat) (w : View) : Pc α → Prop
  | .e2 _ _ t | .e3 _ _ t => ∃ q, Knows c w t q
  | .e4 n t => ∃ q, Knows c w t q ∧ Knows c w n (q + 1)
  | .e5 _ _ t n => ∃ q, Knows c w t q ∧ Knows c w n (q + 1)
  | .d2 h => ∃ q, q ≤ outs ∧ Knows c w h q
  | .d3 h n => ∃ q, q ≤ outs ∧ Knows c w h q ∧ Knows c w n (q + 1)
  | .d4 h n k | .d5 h n k => k < outs ∧ Knows c w h k ∧ Knows c w n (k + 1)
  | .d7 n k => k < outs ∧ Knows c w n (k + 1)
  | .fault => False
  | _ => True

/-- All values of `p.next`. -/
def NextOk (c : List Ptr) (p : Ptr) (l : List (Msg (Option Ptr))) : Prop :=
  (∃ k n y, c[k]? = some p ∧ c[k + 1]? = some n ∧ l = [⟨none, .bot⟩, ⟨some n, y⟩] ∧ Knows c y n (k + 1) ∧ Good c y) ∨
  ((∀ k, c[k]? = some p → k + 1 = c.length) ∧ l = [⟨none, .bot⟩])

structure Inv (s : St α) : Prop where
  start : s.chain[0]? = some 0
  len : s.chain.length = s.ins.length + 1
  nodup : s.chain.Nodup
  bound : ∀ p ∈ s.chain, p < s.alloc
  data : ∀ k p, s.chain[k + 1]? = some p → s.data p = s.ins[k]?
  headLen : s.head.length = s.outs + 1
  head : ∀ (m : Nat) (x : Msg Ptr), s.head[m]? = some x → Knows s.chain x.view x.val m ∧ Good s.chain x.view
  tail : ∀ x ∈ s.tail, (∃ q, Knows s.chain x.view x.val q) ∧ Good s.chain x.view
  next : ∀ p, p < s.alloc → NextOk s.chain p (s.next p)
  good : ∀ t, Good s.chain (s.thr t).view
  pc : ∀ t, PcOk s.chain s.outs (s.thr t).view (s.thr t).pc
  own : ∀ t p v, (s.thr t).pc.owned = some (p, v) → p < s.alloc ∧ p ∉ s.chain ∧ s.data p = some v ∧ (s.thr t).view.ini p = true
  owns : ∀ t u p v w, (s.thr t).pc.owned = some (p, v) → (s.thr u).pc.owned = some (p, w) → t = u
  rets : ∀ k v, (k, v) ∈ s.rets → k < s.outs ∧ s.ins[k]? = some v
  once : (s.rets.map Prod.fst).Nodup
  took : ∀ t k, (s.thr t).pc.took = some k → k ∉ s.rets.map Prod.fst
  tooks : ∀ t u k, (s.thr t).pc.took = some k → (s.thr u).pc.took = some k → t = u
  all : ∀ k, k < s.outs → k ∈ s.rets.map Prod.fst ∨ ∃ t, (s.thr t).pc.took = some k

theorem PcOk.mono {c : List Ptr} {outs : Nat} {v w : View} {pc : Pc α} (h : PcOk c outs v pc) (l : Le v w) : PcOk c outs w pc := by
  cases pc with
  | e2 _ _ t => obtain ⟨q, h⟩ := h; exact ⟨q, h.mono l⟩
  | e3 _ _ t => obtain ⟨q, h⟩ := h; exact ⟨q, h.mono l⟩
  | e4 n t => obtain ⟨q, h1, h2⟩ := h; exact ⟨q, h1.mono l, h2.mono l⟩
  | e5 _ _ t n => obtain ⟨q, h1, h2⟩ := h; exact ⟨q, h1.mono l, h2.mono l⟩
  | d2 h' => obtain ⟨q, h1, h2⟩ := h; exact ⟨q, h1, h2.mono l⟩
  | d3 h' n => obtain ⟨q, h1, h2, h3⟩ := h; exact ⟨q, h1, h2.mono l, h3.mono l⟩
  | d4 h' n k => exact ⟨h.1, h.2.1.mono l, h.2.2.mono l⟩
  | d5 h' n k => exact ⟨h.1, h.2.1.mono l, h.2.2.mono l⟩
  | d7 n k => exact ⟨h.1, h.2.mono l⟩
  | _ => exact h

theorem PcOk.outs {c : List Ptr} {o o' : Nat} {v : View} {pc : Pc α} (h : PcOk c o v pc) (l : o ≤ o') : PcOk c o' v pc := by
  cases pc with
  | d2 h' => obtain ⟨q, h1, h2⟩ := h; exact ⟨q, by omega, h2⟩
  | d3 h' n => obtain ⟨q, h1, h2, h3⟩ := h; exact ⟨q, by omega, h2, h3⟩
  | d4 h' n k => exact ⟨by have := h.1; omega, h.2⟩
  | d5 h' n k => exact ⟨by have := h.1; omega, h.2⟩
  | d7 n k => exact ⟨by have := h.1; omega, h.2⟩
  | _ => exact h

theorem PcOk.ext {c : List Ptr} {o : Nat} {v : View} {pc : Pc α} (h : PcOk c o v pc) (n : Ptr) : PcOk (c ++ [n]) o v pc := by
  cases pc with
  | e2 _ _ t => obtain ⟨q, h⟩ := h; exact ⟨q, h.ext n⟩
  | e3 _ _ t => obtain ⟨q, h⟩ := h; exact ⟨q, h.ext n⟩
  | e4 _ t => obtain ⟨q, h1, h2⟩ := h; exact ⟨q, h1.ext n, h2.ext n⟩
  | e5 _ _ t _ => obtain ⟨q, h1, h2⟩ := h; exact ⟨q, h1.ext n, h2.ext n⟩
  | d2 h' => obtain ⟨q, h1, h2⟩ := h; exact ⟨q, h1, h2.ext n⟩
  | d3 h' _ => obtain ⟨q, h1, h2, h3⟩ := h; exact ⟨q, h1, h2.ext n, h3.ext n⟩
  | d4 h' _ k => exact ⟨h.1, h.2.1.ext n, h.2.2.ext n⟩
  | d5 h' _ k => exact ⟨h.1, h.2.1.ext n, h.2.2.ext n⟩
  | d7 _ k => exact ⟨h.1, h.2.ext n⟩
  | _ => exact h

theorem upd_cases {β : Type} {f : Nat → β} {t u : Nat} {x : β} {P : Nat → β → Prop} (h1 : P t x) (h2 : u ≠ t → P u (f u)) :
    P u (upd f t x u) := by
  by_cases e : u = t
  · subst e; simpa using h1
  · simpa [e] using h2 e

/-- A thread moves and nothing else changes. -/
theorem Inv.move {s : St α} (v : Inv s) {t : Tid} {pc : Pc α} {w : View} (hg : Good s.chain w) (hp : PcOk s.chain s.outs w pc)
    (hi : ∀ p, (s.thr t).view.ini p = true → w.ini p = true)
    (ho : ∀ x, pc.owned = some x → (s.thr t).pc.owned = some x) (ht : pc.took = (s.thr t).pc.took) : Inv (s.at t pc w) where
  start := v.start
  len := v.len
  nodup := v.nodup
  bound := v.bound
  data := v.data
  headLen := v.headLen
  head := v.head
  tail := v.tail
  next := v.next
  good := fun u => by
    by_cases e : u = t
    · subst e; simpa [St.at] using hg
    · simpa [St.at, e] using v.good u
  pc := fun u => by
    by_cases e : u = t
    · subst e; simpa [St.at] using hp
    · simpa [St.at, e] using v.pc u
  own := fun u p x h => by
    by_cases e : u = t
    · subst e
      simp only [St.at, upd_same] at h ⊢
      obtain ⟨a, b, c, d⟩ := v.own u p x (ho _ h)
      exact ⟨a, b, c, hi p d⟩
    · simp only [St.at, upd_other _ _ e] at h ⊢
      exact v.own u p x h
  owns := fun a b p x y ha hb => by
    have key : ∀ u z, ((s.at t pc w).thr u).pc.owned = some z → (s.thr u).pc.owned = some z := by
      intro u z h
      by_cases e : u = t
      · subst e; simp only [St.at, upd_same] at h; exact ho _ h
      · simpa [St.at, e] using h
    exact v.owns a b p x y (key a _ ha) (key b _ hb)
  rets := v.rets
  once := v.once
  took := fun u k h => by
    by_cases e : u = t
    · subst e; simp only [St.at, upd_same] at h; rw [ht] at h; exact v.took u k h
    · simp only [St.at, upd_other _ _ e] at h; exact v.took u k h
  tooks := fun a b k ha hb => by
    have key : ∀ u, ((s.at t pc w).thr u).pc.took = (s.thr u).pc.took := by
      intro u
      by_cases e : u = t
      · subst e; simp only [St.at, upd_same]; exact ht
      · simp only [St.at, upd_other _ _ e]
    rw [key] at ha hb
    exact v.tooks a b k ha hb
  all := fun k hk => by
    rcases v.all k hk with h | ⟨u, hu⟩
    · exact .inl h
    · refine .inr ⟨u, ?_⟩
      by_cases e : u = t
      · subst e; simp only [St.at, upd_same]; rw [ht]; exact hu
      · simp only [St.at, upd_other _ _ e]; exact hu

/-- `tail` is exchanged for a node of the chain. -/
theorem Inv.pushTail {s : St α} (v : Inv s) {m : Msg Ptr} (h : ∃ q, Knows s.chain m.view m.val q) (hg : Good s.chain m.view) :
    Inv (s.pushTail m) where
  start := v.start
  len := v.len
  nodup := v.nodup
  bound := v.bound
  data := v.data
  headLen := v.headLen
  head := v.head
  tail := fun x hx => by
    rcases List.mem_append.1 hx with hx | hx
    · exact v.tail x hx
    · simp at hx; subst hx; exact ⟨h, hg⟩
  next := v.next
  good := v.good
  pc := v.pc
  own := v.own
  owns := v.owns
  rets := v.rets
  once := v.once
  took := v.took
  tooks := v.tooks
  all := v.all

/-- A node is allocated. -/
theorem Inv.new {s : St α} (v : Inv s) {t : Tid} {x : α} (hpc : (s.thr t).pc = .e0 x) :
    Inv ((s.new x).at t (.e1 x s.alloc) { (s.thr t).view with ini := upd (s.thr t).view.ini s.alloc true }) := by
  have hle : Le (s.thr t).view { (s.thr t).view with ini := upd (s.thr t).view.ini s.alloc true } := by
    refine ⟨fun _ => Nat.le_refl _, fun p h => ?_, fun _ h => h⟩
    by_cases e : p = s.alloc
    · subst e; simp
    · simp [e, h]
  have hown : ∀ u p y, ((((s.new x).at t (.e1 x s.alloc) { (s.thr t).view with ini := upd (s.thr t).view.ini s.alloc true }).thr u).pc.owned
      = some (p, y)) → (u = t ∧ p = s.alloc ∧ y = x) ∨ (u ≠ t ∧ (s.thr u).pc.owned = some (p, y)) := by
    intro u p y h
    by_cases e : u = t
    · subst e
      simp only [St.at, upd_same, Pc.owned, Option.some.injEq, Prod.mk.injEq] at h
      exact .inl ⟨rfl, h.1.symm, h.2.symm⟩
    · simp only [St.at, St.new, upd_other _ _ e] at h
      exact .inr ⟨e, h⟩
  have htook : ∀ u, (((s.new x).at t (.e1 x s.alloc) { (s.thr t).view with ini := upd (s.thr t).view.ini s.alloc true }).thr u).pc.took
      = (s.thr u).pc.took := by
    intro u
    by_cases e : u = t
    · subst e; simp only [St.at, upd_same, Pc.took, hpc]
    · simp only [St.at, St.new, upd_other _ _ e]
  exact {
    start := v.start
    len := v.len
    nodup := v.nodup
    bound := fun p hp => Nat.lt_succ_of_lt (v.bound p hp)
    data := fun k p h => by
      have := v.bound p (List.mem_iff_getElem?.2 ⟨_, h⟩)
      simp only [St.at, St.new, upd_other _ _ (show p ≠ s.alloc by omega)]
      exact v.data k p h
    headLen := v.headLen
    head := v.head
    tail := v.tail
    next := fun p hp => by
      by_cases e : p = s.alloc
      · subst e
        simp only [St.at, St.new, upd_same]
        refine .inr ⟨fun k hk => ?_, rfl⟩
        have := v.bound s.alloc (List.mem_iff_getElem?.2 ⟨_, hk⟩)
        omega
      · simp only [St.at, St.new, upd_other _ _ e] at hp ⊢
        exact v.next p (by omega)
    good := fun u => by
      by_cases e : u = t
      · subst e; simpa [St.at, St.new] using (v.good u).saw hle rfl
      · simpa [St.at, St.new, e] using v.good u
    pc := fun u => by
      by_cases e : u = t
      · subst e; simp [St.at, PcOk]
      · simpa [St.at, St.new, e] using v.pc u
    own := fun u p y h => by
      rcases hown u p y h with ⟨rfl, rfl, rfl⟩ | ⟨e, h⟩
      · refine ⟨Nat.lt_succ_self _, fun hm => ?_, by simp [St.at, St.new], by simp [St.at]⟩
        have := v.bound _ hm
        omega
      · obtain ⟨a, b, c, d⟩ := v.own u p y h
        refine ⟨Nat.lt_succ_of_lt a, b, ?_, ?_⟩
        · simp only [St.at, St.new, upd_other _ _ (show p ≠ s.alloc by omega)]
          exact c
        · simp only [St.at, St.new, upd_other _ _ e]
          exact d
    owns := fun a b p y z ha hb => by
      rcases hown a p y ha with ⟨rfl, rfl, rfl⟩ | ⟨e, ha⟩
      · rcases hown b _ z hb with ⟨rfl, -, -⟩ | ⟨e, hb⟩
        · rfl
        · have := (v.own b _ z hb).1
          omega
      · rcases hown b p z hb with ⟨-, e2, -⟩ | ⟨e, hb⟩
        · have := (v.own a _ y ‹(s.thr a).pc.owned = _›).1
          omega
        · exact v.owns a b p y z ha hb
    rets := v.rets
    once := v.once
    took := fun u k h => v.took u k (by rw [htook] at h; exact h)
    tooks := fun a b k ha hb => v.tooks a b k (by rw [htook] at ha; exact ha) (by rw [htook] at hb; exact hb)
    all := fun k hk => by
      rcases v.all k hk with h | ⟨u, hu⟩
      · exact .inl h
      · exact .inr ⟨u, by rw [htook]; exact hu⟩ }

end Verif.Weak.Queue
