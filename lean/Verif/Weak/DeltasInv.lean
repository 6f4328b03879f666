/-
C75: the batch writer finds every change that it counted, under weak memory. See `Verif.Weak.Deltas`.
-/
import Verif.Weak.Deltas
namespace Verif.Weak.Queue
open Verif.Conc

variable {α : Type}

/-- How far an operation is. -/
inductive Cls where
  | idle
  /-- an enqueue that has not taken effect -/
  | enq
  /-- one that has -/
  | lnk
  /-- a dequeue that has not taken effect -/
  | deq
  /-- one that has -/
  | tk
  /-- one that found nothing -/
  | nil
  | fault
  deriving DecidableEq

def Pc.cls : Pc α → Cls
  | .idle => .idle
  | .e0 _ | .e1 _ _ | .e2 _ _ _ | .e3 _ _ _ | .e5 _ _ _ _ => .enq
  | .e4 _ _ | .eret => .lnk
  | .d1 | .d2 _ | .d3 _ _ => .deq
  | .d4 _ _ _ | .d5 _ _ _ | .d7 _ _ | .dret (some _) => .tk
  | .dret none => .nil
  | .fault => .fault

theorem Le.trans {a b c : View} (h : Le a b) (h' : Le b c) : Le a c :=
  ⟨fun p => Nat.le_trans (h.nx p) (h'.nx p), fun p x => h'.ini p (h.ini p x), fun j x => h'.ev j (h.ev j x)⟩

/-- What one access of a thread changes. -/
structure Moved (s s' : St α) (t : Tid) : Prop where
  others : ∀ u, u ≠ t → s'.thr u = s.thr u
  le : Le (s.thr t).view (s'.thr t).view
  what : (s'.chain = s.chain ∧ s'.ins.length = s.ins.length ∧ s'.outs = s.outs ∧
      ((s'.thr t).pc.cls = (s.thr t).pc.cls ∨
        (((s.thr t).pc.cls = .lnk ∨ (s.thr t).pc.cls = .tk ∨ (s.thr t).pc.cls = .nil) ∧ (s'.thr t).pc.cls = .idle) ∨
        ((s.thr t).pc.cls = .deq ∧ (s'.thr t).pc.cls = .nil ∧ ∀ j, (s.thr t).view.ev j = true → j < s.outs))) ∨
    ((∃ n, s'.chain = s.chain ++ [n]) ∧ s'.ins.length = s.ins.length + 1 ∧ s'.outs = s.outs ∧ (s.thr t).pc.cls = .enq ∧
      (s'.thr t).pc.cls = .lnk ∧ (s'.thr t).view.ev s.ins.length = true) ∨
    (s'.chain = s.chain ∧ s'.ins.length = s.ins.length ∧ s'.outs = s.outs + 1 ∧ (s.thr t).pc.cls = .deq ∧ (s'.thr t).pc.cls = .tk)

/-- Only the thread moves. -/
theorem Moved.of {s : St α} {t : Tid} {pc : Pc α} {w : View} (hl : Le (s.thr t).view w)
    (hc : pc.cls = (s.thr t).pc.cls ∨ (((s.thr t).pc.cls = .lnk ∨ (s.thr t).pc.cls = .tk ∨ (s.thr t).pc.cls = .nil) ∧ pc.cls = .idle) ∨
        ((s.thr t).pc.cls = .deq ∧ pc.cls = .nil ∧ ∀ j, (s.thr t).view.ev j = true → j < s.outs)) : Moved s (s.at t pc w) t where
  others := fun u hu => by simp [St.at, hu]
  le := by simpa [St.at] using hl
  what := .inl ⟨rfl, rfl, rfl, by simpa [St.at] using hc⟩

theorem moved_casTail {s s' : St α} {t : Tid} {i old new : Nat} {pc : Pc α}
    (h : casTail code s t (s.thr t).view i old new pc = some s') (hc : pc.cls = (s.thr t).pc.cls) : Moved s s' t := by
  simp only [casTail] at h
  split at h
  · cases h
  · split at h
    · split at h
      · split at h
        · cases h
          exact ⟨fun u hu => by simp [St.at, St.pushTail, hu], by simpa [St.at] using ⟨fun _ => Nat.le_refl _, fun _ h => h, fun _ h => h⟩,
            .inl ⟨rfl, rfl, rfl, .inl (by simpa [St.at] using hc)⟩⟩
        · cases h
      · cases h
        exact Moved.of ⟨fun _ => Nat.le_refl _, fun _ h => h, fun _ h => h⟩ (.inl hc)
    · cases h

theorem moved_go {s s' : St α} (v : Inv s) {t : Tid} {i : Nat} (h : exec code s (.go t i) = some s') : Moved s s' t := by
  have hempty : ∀ hd, (s.thr t).pc = .d2 hd → (s'.thr t).pc = .dret none → ∀ j, (s.thr t).view.ev j = true → j < s.outs :=
    fun hd h1 h2 => v.empty h1 h h2
  have leT : ∀ j, Le (s.thr t).view { (s.thr t).view with tl := j } := fun j => ⟨fun _ => Nat.le_refl _, fun _ h => h, fun _ h => h⟩
  have leH : ∀ j, Le (s.thr t).view { (s.thr t).view with hd := j } := fun j => ⟨fun _ => Nat.le_refl _, fun _ h => h, fun _ h => h⟩
  have hpc := v.pc t
  simp only [exec] at h
  cases e : (s.thr t).pc with
  | idle => rw [e] at h; cases h
  | fault => rw [e] at h; cases h
  | e0 x =>
    rw [e] at h
    cases h
    refine ⟨fun u hu => by simp [St.at, St.new, hu], ?_, .inl ⟨rfl, rfl, rfl, .inl (by simp [St.at, e, Pc.cls])⟩⟩
    simp only [St.at, upd_same]
    refine ⟨fun _ => Nat.le_refl _, fun p h => ?_, fun _ h => h⟩
    by_cases ep : p = s.alloc
    · subst ep; simp
    · simp [ep, h]
  | e1 x new =>
    rw [e] at h
    simp only [goPc] at h
    split at h
    · cases h
    · split at h
      · cases h
        exact Moved.of ((leT i).trans (le_join_left _ _)) (.inl (by rw [e]; rfl))
      · cases h
  | e2 x new tl =>
    rw [e] at h hpc
    obtain ⟨q, hq⟩ := hpc
    simp only [goPc, hq.2.1, if_true] at h
    split at h
    · cases h
    · rename_i m hm
      split at h
      · rename_i hle
        cases h
        refine Moved.of ((le_sawNx hle).trans (le_join_left _ _)) (.inl ?_)
        rw [e]
        split <;> rfl
      · cases h
  | e3 x new tl =>
    rw [e] at h
    simp only [goPc] at h
    split at h
    · cases h
    · split at h
      · rename_i hle
        split at h
        · split at h
          · cases h
            refine ⟨fun u hu => by simp [St.at, St.link, hu], ?_, .inr (.inl ⟨⟨new, rfl⟩, by simp [St.at, St.link], rfl, ?_, ?_, ?_⟩)⟩
            · simp only [St.at, upd_same]
              refine ⟨(le_sawNx (by omega)).nx, fun _ h => h, fun j h => ?_⟩
              by_cases ej : j = s.ins.length
              · subst ej; simp
              · simp [ej, h]
            · simp [e, Pc.cls]
            · simp [St.at, Pc.cls]
            · simp [St.at]
          · cases h
        · cases h
          exact Moved.of (le_sawNx hle) (.inl (by rw [e]; rfl))
      · cases h
  | e4 new tl => rw [e] at h; exact moved_casTail h (by rw [e]; rfl)
  | e5 x new tl n => rw [e] at h; exact moved_casTail h (by rw [e]; rfl)
  | eret => rw [e] at h; cases h; exact Moved.of (Le.refl _) (.inr (.inl ⟨.inl (by rw [e]; rfl), rfl⟩))
  | d1 =>
    rw [e] at h
    simp only [goPc] at h
    split at h
    · cases h
    · split at h
      · cases h
        exact Moved.of ((leH i).trans (le_join_left _ _)) (.inl (by rw [e]; rfl))
      · cases h
  | d2 hd =>
    rw [e] at h hpc
    obtain ⟨q, ho, hq⟩ := hpc
    simp only [goPc, hq.2.1, if_true] at h
    split at h
    · cases h
    · rename_i m hm
      split at h
      · rename_i hle
        cases h
        cases hv : m.val with
        | none =>
          refine Moved.of ((le_sawNx hle).trans (le_join_left _ _)) (.inr (.inr ⟨by rw [e]; rfl, rfl, hempty hd e ?_⟩))
          simp [St.at, hv]
        | some n => exact Moved.of ((le_sawNx hle).trans (le_join_left _ _)) (.inl (by rw [e]; rfl))
      · cases h
  | d3 hd n =>
    rw [e] at h
    simp only [goPc] at h
    split at h
    · cases h
    · split at h
      · split at h
        · split at h
          · cases h
            exact ⟨fun u hu => by simp [St.at, St.pushHead, hu], by simpa [St.at] using leH _,
              .inr (.inr ⟨rfl, rfl, rfl, by simp [e, Pc.cls], by simp [St.at, Pc.cls]⟩)⟩
          · cases h
        · cases h
          exact Moved.of (leH i) (.inl (by rw [e]; rfl))
      · cases h
  | d4 hd n k =>
    rw [e] at h
    simp only [goPc] at h
    split at h
    · cases h
    · split at h
      · cases h
        refine Moved.of ((leT i).trans (le_join_left _ _)) (.inl ?_)
        rw [e]
        split <;> rfl
      · cases h
  | d5 hd n k => rw [e] at h; exact moved_casTail h (by rw [e]; rfl)
  | d7 n k =>
    rw [e] at h hpc
    obtain ⟨h0, h2⟩ := hpc
    have hd := v.data k n h2.1
    have hk : k < s.ins.length := by
      have := (List.getElem?_eq_some_iff.1 h2.1).1
      have := v.len
      omega
    rw [List.getElem?_eq_getElem hk] at hd
    simp only [goPc, h2.2.1, if_true, hd] at h
    cases h
    exact ⟨fun u hu => by simp [St.at, St.give, hu], by simpa [St.at] using Le.refl _,
      .inl ⟨rfl, rfl, rfl, .inl (by simp [St.at, e, Pc.cls])⟩⟩
  | dret x =>
    rw [e] at h
    cases h
    refine Moved.of (Le.refl _) (.inr (.inl ⟨.inr ?_, rfl⟩))
    rw [e]
    cases x
    · exact .inr rfl
    · exact .inl rfl

end Verif.Weak.Queue

namespace Verif.Weak.Deltas
open Verif.Conc Verif.Weak.Queue

variable {α : Type}

/-- Different numbers below `n`: at most `n`. -/
theorem nodup_le : ∀ {n : Nat} {l : List Nat}, l.Nodup → (∀ x ∈ l, x < n) → l.length ≤ n
  | 0, [], _, _ => Nat.le_refl _
  | 0, x :: l, _, h => absurd (h x List.mem_cons_self) (Nat.not_lt_zero _)
  | n + 1, l, hn, h => by
    have h1 := nodup_le (n := n) (hn.erase n) (fun x hx => by
      have h2 := h x (List.mem_of_mem_erase hx)
      have h3 : x ≠ n := fun e => by subst e; exact (List.Nodup.not_mem_erase hn) hx
      omega)
    have h2 := List.length_erase (a := n) (l := l)
    split at h2 <;> omega

/-- If so many different enqueues happened before, then the first ones did. -/
theorem Good.first {c : List Nat} {v : View} (g : Good c v) {l : List Nat} (hn : l.Nodup) (h : ∀ j ∈ l, v.ev j = true) :
    ∀ j, j < l.length → v.ev j = true := by
  intro j hj
  by_cases e : ∃ x ∈ l, j ≤ x
  · obtain ⟨x, hx, hle⟩ := e
    exact ((g x (h x hx)).2 j (by omega)).1
  · have := nodup_le (n := j) hn (fun x hx => by
      have : ¬ j ≤ x := fun hle => e ⟨x, hx, hle⟩
      omega)
    omega

def Tok.has (k : Tok) (u : Nat) : Prop := k.lo ≤ u ∧ u < k.lo + k.n

/-- How far the operation of a thread is, by its role. -/
def Fits : Role → Cls → Prop
  | .free, c => c = .idle
  | .prod none, c => c = .enq
  | .prod (some _), c => c = .lnk ∨ c = .idle
  | .cons _ n, c => c = .idle ∨ c = .tk ∨ (c = .deq ∧ 0 < n)
  | .panicked, _ => False

structure J (s : St α) : Prop where
  q : Queue.Inv s.q
  cg : Good s.q.chain s.cview
  lg : Good s.q.chain s.lview
  tg : ∀ k ∈ s.toks, Good s.q.chain k.view
  count : s.given + s.cnt = s.adds.length
  addsNd : s.adds.Nodup
  addsEv : ∀ j ∈ s.adds, s.cview.ev j = true
  prodEv : ∀ t j, s.role t = .prod (some j) → (s.q.thr t).view.ev j = true ∧ j ∉ s.adds
  prods : ∀ t u j, s.role t = .prod (some j) → s.role u = .prod (some j) → t = u
  tokEv : ∀ k ∈ s.toks, ∀ j, j < k.lo + k.n → k.view.ev j = true
  consEv : ∀ t lo n, s.role t = .cons lo n → ∀ j, j < lo + n → (s.q.thr t).view.ev j = true
  lock : ∀ t, s.lock = some t ↔ ∃ lo n, s.role t = .cons lo n
  usedLen : s.used.length = s.q.outs
  usedNd : s.used.Nodup
  usedFree : s.lock = none → ∀ u ∈ s.used, s.lview.ev u = true
  usedEv : ∀ t lo n, s.role t = .cons lo n → ∀ u ∈ s.used, (s.q.thr t).view.ev u = true
  consU : ∀ t lo n, s.role t = .cons lo n → ∀ u, lo ≤ u → u < lo + n → u ∉ s.used
  tokU : ∀ k ∈ s.toks, ∀ u, k.has u → u ∉ s.used
  consTok : ∀ t lo n, s.role t = .cons lo n → ∀ k ∈ s.toks, ∀ u, lo ≤ u → u < lo + n → ¬ k.has u
  tokTok : s.toks.Pairwise fun k k' => ∀ u, k.has u → ¬ k'.has u
  tokLe : ∀ k ∈ s.toks, k.lo + k.n ≤ s.given
  consLe : ∀ t lo n, s.role t = .cons lo n → lo + n ≤ s.given
  usedLt : ∀ u ∈ s.used, u < s.given
  fits : ∀ t, Fits (s.role t) (s.q.thr t).pc.cls
  allAdds : ∀ j, j < s.q.ins.length → j ∈ s.adds ∨ ∃ t, s.role t = .prod (some j)
  allUsed : ∀ u, u < s.given → u ∈ s.used ∨ (∃ k ∈ s.toks, k.has u) ∨ ∃ t lo n, s.role t = .cons lo n ∧ lo ≤ u ∧ u < lo + n

/-- The chain grows or stays. -/
def Ext (c c' : List Nat) : Prop := c' = c ∨ ∃ n, c' = c ++ [n]

theorem Ext.good {c c' : List Nat} {v : View} (h : Ext c c') (g : Good c v) : Good c' v := by
  rcases h with rfl | ⟨n, rfl⟩
  · exact g
  · exact g.ext n

/-- The thread `t` goes on in the queue, and nothing is taken out. -/
theorem J.move {s : St α} (v : J s) {t : Tid} {q' : Queue.St α} {r : Role} (hq : Queue.Inv q') (hc : Ext s.q.chain q'.chain)
    (ho : ∀ u, u ≠ t → q'.thr u = s.q.thr u) (hle : Le (s.q.thr t).view (q'.thr t).view) (hout : q'.outs = s.q.outs)
    (hf : Fits r (q'.thr t).pc.cls)
    (hr : ∀ j, r = .prod (some j) → (q'.thr t).view.ev j = true ∧ j ∉ s.adds ∧ ∀ u, u ≠ t → s.role u ≠ .prod (some j))
    (hk : ∀ lo n, r = .cons lo n ↔ s.role t = .cons lo n)
    (hall : ∀ j, j < q'.ins.length → (j < s.q.ins.length ∧ s.role t ≠ .prod (some j)) ∨ r = .prod (some j)) : J { s with q := q', role := upd s.role t r } := by
  have hcons : ∀ u lo n, upd s.role t r u = .cons lo n ↔ s.role u = .cons lo n := by
    intro u lo n
    by_cases e : u = t
    · subst e; simpa using hk lo n
    · simp [e]
  have hev : ∀ u j, (s.q.thr u).view.ev j = true → (q'.thr u).view.ev j = true := by
    intro u j h
    by_cases e : u = t
    · subst e; exact hle.ev j h
    · rw [ho u e]; exact h
  exact {
    q := hq
    cg := hc.good v.cg
    lg := hc.good v.lg
    tg := fun k hk => hc.good (v.tg k hk)
    count := v.count
    addsNd := v.addsNd
    addsEv := v.addsEv
    prodEv := fun u j h => by
      by_cases e : u = t
      · subst e; simp only [upd_same] at h; exact ⟨(hr j h).1, (hr j h).2.1⟩
      · simp only [upd_other _ _ e] at h
        exact ⟨hev u j (v.prodEv u j h).1, (v.prodEv u j h).2⟩
    prods := fun a b j ha hb => by
      by_cases e : a = t
      · subst e
        simp only [upd_same] at ha
        by_cases e : b = a
        · exact e.symm
        · simp only [upd_other _ _ e] at hb
          exact absurd hb ((hr j ha).2.2 b e)
      · simp only [upd_other _ _ e] at ha
        by_cases e' : b = t
        · subst e'
          simp only [upd_same] at hb
          exact absurd ha ((hr j hb).2.2 a e)
        · simp only [upd_other _ _ e'] at hb
          exact v.prods a b j ha hb
    tokEv := v.tokEv
    consEv := fun u lo n h j hj => hev u j (v.consEv u lo n ((hcons u lo n).1 h) j hj)
    lock := fun u => by
      rw [v.lock u]
      exact ⟨fun ⟨lo, n, h⟩ => ⟨lo, n, (hcons u lo n).2 h⟩, fun ⟨lo, n, h⟩ => ⟨lo, n, (hcons u lo n).1 h⟩⟩
    usedLen := by simp only [hout]; exact v.usedLen
    usedNd := v.usedNd
    usedFree := v.usedFree
    usedEv := fun u lo n h x hx => hev u x (v.usedEv u lo n ((hcons u lo n).1 h) x hx)
    consU := fun u lo n h => v.consU u lo n ((hcons u lo n).1 h)
    tokU := v.tokU
    consTok := fun u lo n h => v.consTok u lo n ((hcons u lo n).1 h)
    tokTok := v.tokTok
    tokLe := v.tokLe
    consLe := fun u lo n h => v.consLe u lo n ((hcons u lo n).1 h)
    usedLt := v.usedLt
    fits := fun u => by
      by_cases e : u = t
      · subst e; simpa using hf
      · simp only [upd_other _ _ e, ho u e]; exact v.fits u
    allAdds := fun j hj => by
      rcases hall j hj with ⟨h, h'⟩ | h
      · rcases v.allAdds j h with h | ⟨u, hu⟩
        · exact .inl h
        · have e : u ≠ t := fun e => by subst e; exact h' hu
          exact .inr ⟨u, by simp only [upd_other _ _ e]; exact hu⟩
      · exact .inr ⟨t, by simp only [upd_same]; exact h⟩
    allUsed := fun u hu => by
      rcases v.allUsed u hu with h | h | ⟨x, lo, n, h1, h2⟩
      · exact .inl h
      · exact .inr (.inl h)
      · exact .inr (.inr ⟨x, lo, n, (hcons x lo n).2 h1, h2⟩) }

theorem upd_self {β : Type} (f : Nat → β) (t : Nat) : upd f t (f t) = f := by
  funext u
  by_cases h : u = t
  · subst h; simp
  · simp [h]

/-- A thread learns something. -/
theorem J.learn {s : St α} (v : J s) {t : Tid} {w : View} (g : Good s.q.chain w) : J { s with q := learn s.q t w } := by
  have l := le_join_left (s.q.thr t).view w
  have hq : Queue.Inv (Deltas.learn s.q t w) := v.q.move ((v.q.good t).join g) ((v.q.pc t).mono l) l.ini (fun _ h => h) rfl
  have := v.move (t := t) (r := s.role t) hq (.inl rfl) (fun u hu => by simp [Deltas.learn, St.at, hu])
    (by simpa [Deltas.learn, St.at] using l) rfl (by simpa [Deltas.learn, St.at] using v.fits t)
    (fun j h => by
      obtain ⟨a, b⟩ := v.prodEv t j h
      refine ⟨by simpa [Deltas.learn, St.at] using l.ev j a, b, fun u hu h' => hu (v.prods u t j h' h)⟩)
    (fun lo n => Iff.rfl) (fun j hj => by
      by_cases e : s.role t = .prod (some j)
      · exact .inr e
      · exact .inl ⟨hj, e⟩)
  rwa [upd_self] at this

/-- The batch writer takes a change. -/
theorem J.took {s : St α} (v : J s) {t : Tid} {q' : Queue.St α} {lo n : Nat} (hrole : s.role t = .cons lo n) (hn : 0 < n)
    (hq : Queue.Inv q') (hc : q'.chain = s.q.chain) (ho : ∀ u, u ≠ t → q'.thr u = s.q.thr u) (hle : Le (s.q.thr t).view (q'.thr t).view)
    (hout : q'.outs = s.q.outs + 1) (hins : q'.ins.length = s.q.ins.length) (hcl : (q'.thr t).pc.cls = .tk) :
    J { s with q := q', role := upd s.role t (.cons (lo + 1) (n - 1)), used := s.used ++ [lo] } := by
  have hlock : s.lock = some t := (v.lock t).2 ⟨lo, n, hrole⟩
  have hone : ∀ u a b, s.role u = .cons a b → u = t := by
    intro u a b h
    have := (v.lock u).2 ⟨a, b, h⟩
    rw [hlock] at this
    exact (Option.some.inj this).symm
  have hcons : ∀ u a b, upd s.role t (.cons (lo + 1) (n - 1)) u = .cons a b → u = t ∧ a = lo + 1 ∧ b = n - 1 := by
    intro u a b h
    by_cases e : u = t
    · subst e; simp only [upd_same, Role.cons.injEq] at h; exact ⟨rfl, h.1.symm, h.2.symm⟩
    · simp only [upd_other _ _ e] at h; exact absurd (hone u a b h) e
  have hev : ∀ u j, (s.q.thr u).view.ev j = true → (q'.thr u).view.ev j = true := by
    intro u j h
    by_cases e : u = t
    · subst e; exact hle.ev j h
    · rw [ho u e]; exact h
  have hprod : ∀ u j, upd s.role t (.cons (lo + 1) (n - 1)) u = .prod (some j) → s.role u = .prod (some j) := by
    intro u j h
    by_cases e : u = t
    · subst e; simp at h
    · simpa [e] using h
  exact {
    q := hq
    cg := by simp only [hc]; exact v.cg
    lg := by simp only [hc]; exact v.lg
    tg := fun k hk => by simp only [hc]; exact v.tg k hk
    count := v.count
    addsNd := v.addsNd
    addsEv := v.addsEv
    prodEv := fun u j h => ⟨hev u j (v.prodEv u j (hprod u j h)).1, (v.prodEv u j (hprod u j h)).2⟩
    prods := fun a b j ha hb => v.prods a b j (hprod a j ha) (hprod b j hb)
    tokEv := v.tokEv
    consEv := fun u a b h j hj => by
      obtain ⟨rfl, rfl, rfl⟩ := hcons u a b h
      exact hev u j (v.consEv u lo n hrole j (by omega))
    lock := fun u => by
      simp only [hlock, Option.some.injEq]
      constructor
      · rintro rfl; exact ⟨lo + 1, n - 1, by simp⟩
      · rintro ⟨a, b, h⟩; exact (hcons u a b h).1.symm
    usedLen := by simp only [hout, List.length_append, List.length_singleton, v.usedLen]
    usedNd := by
      rw [List.nodup_append]
      refine ⟨v.usedNd, by simp, fun a ha b hb => ?_⟩
      simp only [List.mem_singleton] at hb
      subst hb
      rintro rfl
      exact v.consU t a n hrole a (Nat.le_refl _) (by omega) ha
    usedFree := fun h => by simp only [hlock] at h; cases h
    usedEv := fun u a b h x hx => by
      obtain ⟨rfl, rfl, rfl⟩ := hcons u a b h
      rcases List.mem_append.1 hx with hx | hx
      · exact hev u x (v.usedEv u lo n hrole x hx)
      · simp only [List.mem_singleton] at hx
        subst hx
        exact hev u x (v.consEv u x n hrole x (by omega))
    consU := fun u a b h x h1 h2 hx => by
      obtain ⟨rfl, rfl, rfl⟩ := hcons u a b h
      rcases List.mem_append.1 hx with hx | hx
      · exact v.consU u lo n hrole x (by omega) (by omega) hx
      · simp only [List.mem_singleton] at hx
        omega
    tokU := fun k hk x h hx => by
      rcases List.mem_append.1 hx with hx | hx
      · exact v.tokU k hk x h hx
      · simp only [List.mem_singleton] at hx
        subst hx
        exact v.consTok t x n hrole k hk x (Nat.le_refl _) (by omega) h
    consTok := fun u a b h k hk x h1 h2 => by
      obtain ⟨rfl, rfl, rfl⟩ := hcons u a b h
      exact v.consTok u lo n hrole k hk x (by omega) (by omega)
    tokTok := v.tokTok
    tokLe := v.tokLe
    consLe := fun u a b h => by
      obtain ⟨rfl, rfl, rfl⟩ := hcons u a b h
      have := v.consLe u lo n hrole
      simp only
      omega
    usedLt := fun x hx => by
      rcases List.mem_append.1 hx with hx | hx
      · exact v.usedLt x hx
      · simp only [List.mem_singleton] at hx
        subst hx
        have := v.consLe t x n hrole
        simp only
        omega
    fits := fun u => by
      by_cases e : u = t
      · subst e; simp only [upd_same]; exact .inr (.inl hcl)
      · simp only [upd_other _ _ e, ho u e]; exact v.fits u
    allAdds := fun j hj => by
      simp only [hins] at hj
      rcases v.allAdds j hj with h | ⟨u, hu⟩
      · exact .inl h
      · have e : u ≠ t := fun e => by subst e; rw [hrole] at hu; cases hu
        exact .inr ⟨u, by simp only [upd_other _ _ e]; exact hu⟩
    allUsed := fun u hu => by
      rcases v.allUsed u hu with h | h | ⟨x, a, b, h1, h2, h3⟩
      · exact .inl (List.mem_append_left _ h)
      · exact .inr (.inl h)
      · have := hone x a b h1
        subst this
        rw [hrole] at h1
        cases h1
        by_cases e : u = lo
        · subst e; exact .inl (List.mem_append_right _ (by simp))
        · exact .inr (.inr ⟨x, lo + 1, n - 1, by simp, by omega, by omega⟩) }

/-- The writer never finds the queue empty. -/
theorem J.never {s : St α} (v : J s) {t : Tid} {lo n : Nat} (hrole : s.role t = .cons lo n) (hn : 0 < n)
    (h : ∀ j, (s.q.thr t).view.ev j = true → j < s.q.outs) : False := by
  have hnd : (s.used ++ [lo]).Nodup := by
    rw [List.nodup_append]
    refine ⟨v.usedNd, by simp, fun a ha b hb => ?_⟩
    simp only [List.mem_singleton] at hb
    subst hb
    rintro rfl
    exact v.consU t a n hrole a (Nat.le_refl _) (by omega) ha
  have := Good.first (v.q.good t) hnd (fun j hj => by
    rcases List.mem_append.1 hj with hj | hj
    · exact v.usedEv t lo n hrole j hj
    · simp only [List.mem_singleton] at hj
      subst hj
      exact v.consEv t j n hrole j (by omega)) s.q.outs (by simp [v.usedLen])
  exact absurd (h _ this) (Nat.lt_irrefl _)

theorem inv_init : J (init : St α) where
  q := Queue.inv_init
  cg := good_bot _
  lg := good_bot _
  tg := by intro k hk; cases hk
  count := rfl
  addsNd := List.nodup_nil
  addsEv := by intro k hk; cases hk
  prodEv := by intro t j h; cases h
  prods := by intro t u j h; cases h
  tokEv := by intro k hk; cases hk
  consEv := by intro t lo n h; cases h
  lock := fun t => ⟨(fun h => by cases h), (fun ⟨_, _, h⟩ => by cases h)⟩
  usedLen := rfl
  usedNd := List.nodup_nil
  usedFree := by intro _ k hk; cases hk
  usedEv := by intro t lo n h; cases h
  consU := by intro t lo n h; cases h
  tokU := by intro k hk; cases hk
  consTok := by intro t lo n h; cases h
  tokTok := List.Pairwise.nil
  tokLe := by intro k hk; cases hk
  consLe := by intro t lo n h; cases h
  usedLt := by intro u hu; cases hu
  fits := fun t => rfl
  allAdds := fun j hj => by simp [init, Queue.init] at hj
  allUsed := fun j hj => by simp [init] at hj

/-- A change is counted. -/
theorem J.add {s : St α} (v : J s) {t : Tid} {j : Nat} (hrole : s.role t = .prod (some j)) (hpc : (s.q.thr t).pc = .idle) :
    J { s with cnt := s.cnt + 1, cview := (s.q.thr t).view.release true s.cview, role := upd s.role t .free, adds := s.adds ++ [j] } := by
  obtain ⟨h1, h2⟩ := v.prodEv t j hrole
  have hcons : ∀ u lo n, upd s.role t .free u = .cons lo n ↔ s.role u = .cons lo n := by
    intro u lo n
    by_cases e : u = t
    · subst e; simp [hrole]
    · simp [e]
  have hprod : ∀ u i, upd s.role t .free u = .prod (some i) → u ≠ t ∧ s.role u = .prod (some i) := by
    intro u i h
    by_cases e : u = t
    · subst e; simp at h
    · exact ⟨e, by simpa [e] using h⟩
  exact {
    q := v.q
    cg := v.cg.join (v.q.good t)
    lg := v.lg
    tg := v.tg
    count := by have := v.count; simp only [List.length_append, List.length_singleton]; omega
    addsNd := by
      rw [List.nodup_append]
      refine ⟨v.addsNd, by simp, fun a ha b hb => ?_⟩
      simp only [List.mem_singleton] at hb
      subst hb
      rintro rfl
      exact h2 ha
    addsEv := fun i hi => by
      rcases List.mem_append.1 hi with hi | hi
      · exact (le_join_left _ _).ev i (v.addsEv i hi)
      · simp only [List.mem_singleton] at hi
        subst hi
        exact (le_join_right _ _).ev i h1
    prodEv := fun u i h => by
      obtain ⟨e, h⟩ := hprod u i h
      refine ⟨(v.prodEv u i h).1, fun hm => ?_⟩
      rcases List.mem_append.1 hm with hm | hm
      · exact (v.prodEv u i h).2 hm
      · simp only [List.mem_singleton] at hm
        subst hm
        exact e (v.prods u t i ‹s.role u = _› hrole)
    prods := fun a b i ha hb => v.prods a b i (hprod a i ha).2 (hprod b i hb).2
    tokEv := v.tokEv
    consEv := fun u lo n h => v.consEv u lo n ((hcons u lo n).1 h)
    lock := fun u => by
      rw [v.lock u]
      exact ⟨fun ⟨lo, n, h⟩ => ⟨lo, n, (hcons u lo n).2 h⟩, fun ⟨lo, n, h⟩ => ⟨lo, n, (hcons u lo n).1 h⟩⟩
    usedLen := v.usedLen
    usedNd := v.usedNd
    usedFree := v.usedFree
    usedEv := fun u lo n h => v.usedEv u lo n ((hcons u lo n).1 h)
    consU := fun u lo n h => v.consU u lo n ((hcons u lo n).1 h)
    tokU := v.tokU
    consTok := fun u lo n h => v.consTok u lo n ((hcons u lo n).1 h)
    tokTok := v.tokTok
    tokLe := v.tokLe
    consLe := fun u lo n h => v.consLe u lo n ((hcons u lo n).1 h)
    usedLt := v.usedLt
    fits := fun u => by
      by_cases e : u = t
      · subst e; simp only [upd_same, hpc]; rfl
      · simp only [upd_other _ _ e]; exact v.fits u
    allAdds := fun i hi => by
      rcases v.allAdds i hi with h | ⟨u, hu⟩
      · exact .inl (List.mem_append_left _ h)
      · by_cases e : u = t
        · subst e
          rw [hrole] at hu
          cases hu
          exact .inl (List.mem_append_right _ (by simp))
        · exact .inr ⟨u, by simp only [upd_other _ _ e]; exact hu⟩
    allUsed := fun u hu => by
      rcases v.allUsed u hu with h | h | ⟨x, lo, n, h1, h2⟩
      · exact .inl h
      · exact .inr (.inl h)
      · exact .inr (.inr ⟨x, lo, n, (hcons x lo n).2 h1, h2⟩) }

/-- The count is taken for a task; `w` is what the thread knows afterwards. -/
theorem J.take {s : St α} (v : J s) {t : Tid} (hg : Good s.q.chain (s.q.thr t).view) (hle : Le s.cview (s.q.thr t).view) :
    J { s with cnt := 0, cview := (s.q.thr t).view.release true s.cview, given := s.given + s.cnt
               toks := s.toks ++ [⟨s.given, s.cnt, (s.q.thr t).view⟩] } := by
  have hfirst := Good.first v.cg v.addsNd v.addsEv
  have hnew : ∀ k ∈ s.toks ++ [⟨s.given, s.cnt, (s.q.thr t).view⟩], k ∈ s.toks ∨ k = ⟨s.given, s.cnt, (s.q.thr t).view⟩ := by
    intro k hk
    rcases List.mem_append.1 hk with hk | hk
    · exact .inl hk
    · exact .inr (by simpa using hk)
  exact {
    q := v.q
    cg := v.cg.join hg
    lg := v.lg
    tg := fun k hk => by
      rcases hnew k hk with hk | rfl
      · exact v.tg k hk
      · exact hg
    count := by have := v.count; simp only; omega
    addsNd := v.addsNd
    addsEv := fun i hi => (le_join_left _ _).ev i (v.addsEv i hi)
    prodEv := v.prodEv
    prods := v.prods
    tokEv := fun k hk j hj => by
      rcases hnew k hk with hk | rfl
      · exact v.tokEv k hk j hj
      · simp only at hj ⊢
        have := v.count
        exact hle.ev j (hfirst j (by omega))
    consEv := v.consEv
    lock := v.lock
    usedLen := v.usedLen
    usedNd := v.usedNd
    usedFree := v.usedFree
    usedEv := v.usedEv
    consU := v.consU
    tokU := fun k hk u h hu => by
      rcases hnew k hk with hk | rfl
      · exact v.tokU k hk u h hu
      · have := v.usedLt u hu
        have := h.1
        simp only at this
        omega
    consTok := fun x lo n h k hk u h1 h2 h3 => by
      rcases hnew k hk with hk | rfl
      · exact v.consTok x lo n h k hk u h1 h2 h3
      · have := v.consLe x lo n h
        have := h3.1
        simp only at this
        omega
    tokTok := by
      rw [List.pairwise_append]
      refine ⟨v.tokTok, by simp, fun k hk k' hk' u h h' => ?_⟩
      simp only [List.mem_singleton] at hk'
      subst hk'
      have := v.tokLe k hk
      have := h.2
      have := h'.1
      simp only at this
      omega
    tokLe := fun k hk => by
      rcases hnew k hk with hk | rfl
      · have := v.tokLe k hk; simp only; omega
      · exact Nat.le_refl _
    consLe := fun x lo n h => by have := v.consLe x lo n h; simp only; omega
    usedLt := fun u hu => by have := v.usedLt u hu; simp only; omega
    fits := v.fits
    allAdds := v.allAdds
    allUsed := fun u hu => by
      by_cases e : u < s.given
      · rcases v.allUsed u e with h | ⟨k, h1, h2⟩ | h
        · exact .inl h
        · exact .inr (.inl ⟨k, List.mem_append_left _ h1, h2⟩)
        · exact .inr (.inr h)
      · exact .inr (.inl ⟨⟨s.given, s.cnt, (s.q.thr t).view⟩, List.mem_append_right _ (by simp), by simp only [Tok.has] at hu ⊢; omega⟩) }

theorem mem_of_erase {l : List Tok} {k : Nat} {x : Tok} (h : x ∈ l.eraseIdx k) : x ∈ l := List.mem_of_mem_eraseIdx h

theorem mem_erase_or {l : List Tok} {k : Nat} {a x : Tok} (ha : l[k]? = some a) (h : x ∈ l) : x ∈ l.eraseIdx k ∨ x = a := by
  obtain ⟨j, hj⟩ := List.mem_iff_getElem?.1 h
  by_cases e : j = k
  · subst e; rw [ha] at hj; cases hj; exact .inr rfl
  · left
    rw [List.mem_iff_getElem?]
    by_cases hlt : j < k
    · exact ⟨j, by rw [List.getElem?_eraseIdx_of_lt hlt]; exact hj⟩
    · refine ⟨j - 1, ?_⟩
      rw [List.getElem?_eraseIdx_of_ge (by omega)]
      have : j - 1 + 1 = j := by omega
      rw [this]
      exact hj

theorem pairwise_erase {R : Tok → Tok → Prop} (hs : ∀ a b, R a b → R b a) : ∀ {l : List Tok} {k : Nat} {a : Tok}, l.Pairwise R →
    l[k]? = some a → ∀ b ∈ l.eraseIdx k, R a b
  | [], k, a, _, h, _, _ => by simp at h
  | x :: l, 0, a, hp, h, b, hb => by
    simp at h
    subst h
    exact (List.pairwise_cons.1 hp).1 b (by simpa using hb)
  | x :: l, k + 1, a, hp, h, b, hb => by
    simp at h hb
    rcases hb with rfl | hb
    · exact hs _ _ ((List.pairwise_cons.1 hp).1 a (List.mem_iff_getElem?.2 ⟨k, h⟩))
    · exact pairwise_erase hs (List.pairwise_cons.1 hp).2 h b hb

/-- A task begins; the thread has learnt what came with it and with the lock. -/
theorem J.start {s : St α} (v : J s) {t : Tid} {k : Nat} {tok : Tok} (hrole : s.role t = .free) (hlock : s.lock = none)
    (hk : s.toks[k]? = some tok) (h1 : Le tok.view (s.q.thr t).view) (h2 : Le s.lview (s.q.thr t).view) :
    J { s with lock := some t, toks := s.toks.eraseIdx k, role := upd s.role t (.cons tok.lo tok.n) } := by
  have hm : tok ∈ s.toks := List.mem_iff_getElem?.2 ⟨k, hk⟩
  have hnone : ∀ u lo n, s.role u ≠ .cons lo n := fun u lo n h => by
    have := (v.lock u).2 ⟨lo, n, h⟩
    rw [hlock] at this
    cases this
  have hcons : ∀ u a b, upd s.role t (.cons tok.lo tok.n) u = .cons a b → u = t ∧ a = tok.lo ∧ b = tok.n := by
    intro u a b h
    by_cases e : u = t
    · subst e; simp only [upd_same, Role.cons.injEq] at h; exact ⟨rfl, h.1.symm, h.2.symm⟩
    · simp only [upd_other _ _ e] at h; exact absurd h (hnone u a b)
  have hprod : ∀ u j, upd s.role t (.cons tok.lo tok.n) u = .prod (some j) → s.role u = .prod (some j) := by
    intro u j h
    by_cases e : u = t
    · subst e; simp at h
    · simpa [e] using h
  exact {
    q := v.q
    cg := v.cg
    lg := v.lg
    tg := fun x hx => v.tg x (mem_of_erase hx)
    count := v.count
    addsNd := v.addsNd
    addsEv := v.addsEv
    prodEv := fun u j h => v.prodEv u j (hprod u j h)
    prods := fun a b j ha hb => v.prods a b j (hprod a j ha) (hprod b j hb)
    tokEv := fun x hx => v.tokEv x (mem_of_erase hx)
    consEv := fun u a b h j hj => by
      obtain ⟨rfl, rfl, rfl⟩ := hcons u a b h
      exact h1.ev j (v.tokEv tok hm j hj)
    lock := fun u => by
      simp only [Option.some.injEq]
      constructor
      · rintro rfl; exact ⟨tok.lo, tok.n, by simp⟩
      · rintro ⟨a, b, h⟩; exact (hcons u a b h).1.symm
    usedLen := v.usedLen
    usedNd := v.usedNd
    usedFree := fun h => by cases h
    usedEv := fun u a b h x hx => by
      obtain ⟨rfl, rfl, rfl⟩ := hcons u a b h
      exact h2.ev x (v.usedFree hlock x hx)
    consU := fun u a b h x x1 x2 => by
      obtain ⟨rfl, rfl, rfl⟩ := hcons u a b h
      exact v.tokU tok hm x ⟨x1, x2⟩
    tokU := fun x hx => v.tokU x (mem_of_erase hx)
    consTok := fun u a b h x hx y y1 y2 => by
      obtain ⟨rfl, rfl, rfl⟩ := hcons u a b h
      exact pairwise_erase (fun a b h u hb ha => h u ha hb) v.tokTok hk x hx y ⟨y1, y2⟩
    tokTok := v.tokTok.sublist (List.eraseIdx_sublist _ _)
    tokLe := fun x hx => v.tokLe x (mem_of_erase hx)
    consLe := fun u a b h => by
      obtain ⟨rfl, rfl, rfl⟩ := hcons u a b h
      exact v.tokLe tok hm
    usedLt := v.usedLt
    fits := fun u => by
      by_cases e : u = t
      · subst e
        have := v.fits u
        rw [hrole] at this
        simp only [upd_same]
        exact .inl this
      · simp only [upd_other _ _ e]; exact v.fits u
    allAdds := fun j hj => by
      rcases v.allAdds j hj with h | ⟨u, hu⟩
      · exact .inl h
      · have e : u ≠ t := fun e => by subst e; rw [hrole] at hu; cases hu
        exact .inr ⟨u, by simp only [upd_other _ _ e]; exact hu⟩
    allUsed := fun u hu => by
      rcases v.allUsed u hu with h | ⟨x, hx, h⟩ | ⟨x, lo, n, h, -⟩
      · exact .inl h
      · rcases mem_erase_or hk hx with hx | rfl
        · exact .inr (.inl ⟨x, hx, h⟩)
        · exact .inr (.inr ⟨t, x.lo, x.n, by simp, h.1, h.2⟩)
      · exact absurd h (hnone x lo n) }

/-- A batch is finished. -/
theorem J.finish {s : St α} (v : J s) {t : Tid} {lo : Nat} (hrole : s.role t = .cons lo 0) (hpc : (s.q.thr t).pc = .idle) :
    J { s with lock := none, lview := (s.q.thr t).view, role := upd s.role t .free } := by
  have hlock : s.lock = some t := (v.lock t).2 ⟨lo, 0, hrole⟩
  have hcons : ∀ u a b, upd s.role t .free u ≠ .cons a b := by
    intro u a b h
    by_cases e : u = t
    · subst e; simp at h
    · simp only [upd_other _ _ e] at h
      have := (v.lock u).2 ⟨a, b, h⟩
      rw [hlock] at this
      exact e (Option.some.inj this).symm
  have hprod : ∀ u j, upd s.role t .free u = .prod (some j) → s.role u = .prod (some j) := by
    intro u j h
    by_cases e : u = t
    · subst e; simp at h
    · simpa [e] using h
  exact {
    q := v.q
    cg := v.cg
    lg := v.q.good t
    tg := v.tg
    count := v.count
    addsNd := v.addsNd
    addsEv := v.addsEv
    prodEv := fun u j h => v.prodEv u j (hprod u j h)
    prods := fun a b j ha hb => v.prods a b j (hprod a j ha) (hprod b j hb)
    tokEv := v.tokEv
    consEv := fun u a b h => absurd h (hcons u a b)
    lock := fun u => ⟨(fun h => by cases h), fun ⟨a, b, h⟩ => absurd h (hcons u a b)⟩
    usedLen := v.usedLen
    usedNd := v.usedNd
    usedFree := fun _ => v.usedEv t lo 0 hrole
    usedEv := fun u a b h => absurd h (hcons u a b)
    consU := fun u a b h => absurd h (hcons u a b)
    tokU := v.tokU
    consTok := fun u a b h => absurd h (hcons u a b)
    tokTok := v.tokTok
    tokLe := v.tokLe
    consLe := fun u a b h => absurd h (hcons u a b)
    usedLt := v.usedLt
    fits := fun u => by
      by_cases e : u = t
      · subst e; simp only [upd_same, hpc]; rfl
      · simp only [upd_other _ _ e]; exact v.fits u
    allAdds := fun j hj => by
      rcases v.allAdds j hj with h | ⟨u, hu⟩
      · exact .inl h
      · have e : u ≠ t := fun e => by subst e; rw [hrole] at hu; cases hu
        exact .inr ⟨u, by simp only [upd_other _ _ e]; exact hu⟩
    allUsed := fun u hu => by
      rcases v.allUsed u hu with h | h | ⟨x, a, b, h, h1, h2⟩
      · exact .inl h
      · exact .inr (.inl h)
      · exfalso
        have e := (v.lock x).2 ⟨a, b, h⟩
        rw [hlock] at e
        cases e
        rw [hrole] at h
        cases h
        omega }

end Verif.Weak.Deltas
