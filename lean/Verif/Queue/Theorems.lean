/-
C17: the queue behaves like an indivisible queue under every schedule of any number of threads, reads no freed memory, and
no thread can be held up by others that stopped.
-/
import Verif.Queue.Steps
namespace Verif.Queue
open Verif.Conc
variable {α : Type}

theorem inv_init (x : Addr) : Inv (init x : St α) ⟨[(x, none)], 0, 0, [], [], fun _ => 0⟩ ⟨[], fun _ => .idle⟩ := by
  refine ⟨⟨fun p y hp _ => ?_, fun p p' y hp hp' _ _ => ?_, rfl, rfl, by simp, rfl, fun _ _ h => absurd h (by simp), by simp,
    fun _ h => absurd h (by simp), fun p y hy => absurd hy (by simp), rfl⟩, fun t => ?_, fun t u _ => ?_⟩
  · cases p with
    | zero =>
      simp only [List.getElem?_cons_zero, Option.some.injEq] at hp
      subst hp
      simp [init, setHeap, Gh.a]
    | succ p => simp at hp
  · cases p <;> cases p' <;> simp_all [Gh.a]
  · exact ⟨trivial, fun h => absurd h (by simp [init, busy]), fun h => absurd h (by simp [init]),
      fun _ _ h => absurd h (by simp [init, privOf]), fun h => absurd h (by simp [init, owns]), rfl⟩
  · exact ⟨fun _ _ _ _ h => absurd h (by simp [init, privOf]), fun h => absurd h (by simp [init, owns])⟩

theorem ARun.trans {σ O R : Type} {Ob : Obj σ O R} {a b c : ASt σ O R} {es es' : List (Ev O R)} (h : ARun Ob a es b)
    (h' : ARun Ob b es' c) : ARun Ob a (es ++ es') c := by
  induction h' with
  | refl => simpa using h
  | tail _ hs ih => rw [← List.append_assoc]; exact ih.tail hs

theorem Next.run {a a' : ASt (List α) (Op α) (Ret α)} {o : Option (Ev (Op α) (Ret α))} (h : Next a o a') :
    ARun fifo a o.toList a' := by
  rcases h with ⟨rfl, rfl⟩ | h
  · exact .refl _
  · have := (ARun.refl (O := fifo) a).tail h
    simpa using this

theorem run_inv : ∀ {acts : List (Act α)} {s s' : St α} {g : Gh α} {a : ASt (List α) (Op α) (Ret α)}
    {evs : List (Ev (Op α) (Ret α))}, Inv s g a → run s acts = some (s', evs) →
    ∃ g' a', Inv s' g' a' ∧ ARun fifo a evs a'
  | [], s, s', g, a, evs, hi, h => by
    simp only [run, Option.some.injEq, Prod.mk.injEq] at h
    obtain ⟨rfl, rfl⟩ := h
    exact ⟨g, a, hi, .refl _⟩
  | x :: xs, s, s', g, a, evs, hi, h => by
    simp only [run] at h
    cases hx : exec s x with
    | none => simp [hx] at h
    | some r =>
      obtain ⟨s1, o⟩ := r
      simp only [hx, Option.map_eq_some_iff, Prod.mk.injEq] at h
      obtain ⟨⟨s2, es⟩, hr, rfl, rfl⟩ := h
      obtain ⟨g1, a1, hi1, hn⟩ := step hi hx
      obtain ⟨g2, a2, hi2, hr2⟩ := run_inv hi1 hr
      exact ⟨g2, a2, hi2, ARun.trans hn.run hr2⟩

/-- **C17.** Whatever threads call `blocking_enqueue` and `blocking_try_dequeue`, however their accesses interleave, whatever
addresses the allocator hands out and whenever retired nodes are freed: what the threads see can be seen of a list
in which every enqueue appends and every dequeue takes from the front in one indivisible step between call and
return. -/
theorem C17_linearizable {x : Addr} {acts : List (Act α)} {s : St α} {evs : List (Ev (Op α) (Ret α))}
    (h : run (init x) acts = some (s, evs)) : Linearizable fifo [] evs := by
  obtain ⟨_, a, _, hr⟩ := run_inv (inv_init x) h
  exact ⟨a, hr⟩

/-- **C17.** No thread ever reads a node that was freed or the uninitialised data of the sentinel, although freed addresses
are used again. -/
theorem C17_memory_safe {x : Addr} {acts : List (Act α)} {s : St α} {evs : List (Ev (Op α) (Ret α))}
    (h : run (init x) acts = some (s, evs)) (t : Tid) : (s.thr t).pc ≠ .fault := by
  obtain ⟨g, a, hi, _⟩ := run_inv (inv_init x) h
  intro e
  have := (hi.tok t).ok
  rw [e] at this
  exact this

/-- The values of the nodes from an address on. -/
inductive Chain (heap : Addr → Option (Node α)) : Option Addr → List α → Prop where
  | nil : Chain heap none []
  | cons {a v n l} : heap a = some ⟨some v, n⟩ → Chain heap n l → Chain heap (some a) (v :: l)

/-- The nodes behind `head` carry the values of the indivisible queue. -/
theorem Shared.chain {s : St α} {g : Gh α} {q : List α} (h : Shared s g q) : ∀ (l : List α) (p : Nat), g.H < p →
    (g.L.drop p).map (·.2) = l.map some → Chain s.heap (g.a p) l
  | [], p, _, hl => by
    have : g.a p = none := by
      simp only [List.map_nil, List.map_eq_nil_iff, List.drop_eq_nil_iff] at hl
      simp [Gh.a, hl]
    rw [this]; exact .nil
  | v :: l, p, hp, hl => by
    cases hd : g.L.drop p with
    | nil => rw [hd] at hl; simp at hl
    | cons y m =>
      rw [hd] at hl
      simp only [List.map_cons, List.cons.injEq] at hl
      have hy : g.L[p]? = some y := by
        have := congrArg (·[0]?) hd
        simpa using this
      have hm : g.L.drop (p + 1) = m := by
        have := congrArg (·.drop 1) hd
        simpa using this
      have hF : p ∉ g.F := fun hf => by have := (h.free p hf).1; omega
      have hh := h.heap p y hy hF
      have ha : g.a p = some y.1 := by simp [Gh.a, hy]
      rw [ha]
      rw [hl.1] at hh
      exact .cons hh (h.chain l (p + 1) (by omega) (by rw [hm]; exact hl.2))

theorem Inv.chain {s : St α} {g : Gh α} {a : ASt (List α) (Op α) (Ret α)} (h : Inv s g a) :
    ∃ nd, s.heap s.head = some nd ∧ Chain s.heap nd.next a.q := by
  obtain ⟨v, hv⟩ := a_some_iff.1 h.sh.head
  exact ⟨_, h.sh.heap _ _ hv (holds_head h.sh 0 _ (Nat.le_refl _)).1, h.sh.chain _ _ (Nat.lt_succ_self _) h.sh.q⟩

/-! ## Nothing lost, nothing twice -/

section Count
variable [DecidableEq α]

/-- How often a value was given to `blocking_enqueue`. -/
def called (v : α) (es : List (Ev (Op α) (Ret α))) : Nat :=
  es.countP fun | .call _ (.enq w) => w = v | _ => false

/-- How often `blocking_try_dequeue` returned it. -/
def returned (v : α) (es : List (Ev (Op α) (Ret α))) : Nat :=
  es.countP fun | .ret _ (.val (some w)) => w = v | _ => false

/-- The values that threads hold: given but not in the queue yet, or taken but not returned. -/
def heldVal (v : α) : AThr (Op α) (Ret α) → Nat
  | .pend (.enq w) => if w = v then 1 else 0
  | .done (.val (some w)) => if w = v then 1 else 0
  | _ => 0

/-- The sum over threads `0..n`. -/
def heldBy (v : α) (f : Nat → AThr (Op α) (Ret α)) : Nat → Nat
  | 0 => 0
  | n + 1 => heldBy v f n + heldVal v (f n)

theorem heldBy_upd_ge (v : α) (f : Nat → AThr (Op α) (Ret α)) (t : Nat) (b : AThr (Op α) (Ret α)) :
    ∀ n, n ≤ t → heldBy v (upd f t b) n = heldBy v f n
  | 0, _ => rfl
  | n + 1, h => by
    simp only [heldBy, heldBy_upd_ge v f t b n (by omega)]
    rw [upd_other]
    omega

theorem heldBy_upd (v : α) (f : Nat → AThr (Op α) (Ret α)) (t : Nat) (b : AThr (Op α) (Ret α)) :
    ∀ n, t < n → heldBy v (upd f t b) n + heldVal v (f t) = heldBy v f n + heldVal v b
  | 0, h => absurd h (by omega)
  | n + 1, h => by
    by_cases e : t = n
    · subst e
      simp only [heldBy, heldBy_upd_ge v f t b t (Nat.le_refl _), upd_same]
      omega
    · have := heldBy_upd v f t b n (by omega)
      simp only [heldBy]
      rw [upd_other _ _ (by omega)]
      omega

/-- All threads that take part. -/
def Below (n : Nat) : Ev (Op α) (Ret α) → Prop
  | .call t _ => t < n
  | .ret t _ => t < n

theorem count_run {n : Nat} {v : α} {a b : ASt (List α) (Op α) (Ret α)} {es : List (Ev (Op α) (Ret α))}
    (h : ARun fifo a es b) (hidle : ∀ t, n ≤ t → a.thr t = .idle) (hb : ∀ e ∈ es, Below n e) :
    (∀ t, n ≤ t → b.thr t = .idle) ∧
    returned v es + b.q.count v + heldBy v b.thr n = called v es + a.q.count v + heldBy v a.thr n := by
  induction h with
  | refl => exact ⟨hidle, by simp [returned, called]⟩
  | @tail es b o c _ hs ih =>
    obtain ⟨ih1, ih2⟩ := ih (fun e he => hb e (List.mem_append_left _ he))
    simp only [returned, called, List.countP_append] at ih2 ⊢
    cases hs with
    | @call t op hi =>
      have ht : t < n := hb (.call t op) (by simp)
      refine ⟨fun u hu => ?_, ?_⟩
      · simp only; rw [upd_other _ _ (by omega)]; exact ih1 u hu
      · have := heldBy_upd v b.thr t (.pend op) n ht
        rw [hi] at this
        cases op with
        | deq => simp [heldVal] at this ⊢; omega
        | enq w =>
          by_cases e : w = v <;> simp [heldVal, e] at this ⊢ <;> omega
    | @lin t op hi =>
      have ht : t < n := by
        by_cases ht : t < n
        · exact ht
        · rw [ih1 t (by omega)] at hi; exact absurd hi (by simp)
      refine ⟨fun u hu => ?_, ?_⟩
      · simp only; rw [upd_other _ _ (by omega)]; exact ih1 u hu
      · have := heldBy_upd v b.thr t (.done (fifo.apply b.q op).2) n ht
        rw [hi] at this
        cases op with
        | deq =>
          cases hq : b.q with
          | nil => simp [heldVal, fifo, hq] at this ih2 ⊢; omega
          | cons w q =>
            by_cases e : w = v <;> simp [heldVal, fifo, hq, e] at this ih2 ⊢ <;> omega
        | enq w =>
          by_cases e : w = v <;> simp [heldVal, fifo, e] at this ih2 ⊢ <;> omega
    | @ret t r hi =>
      have ht : t < n := hb (.ret t r) (by simp)
      refine ⟨fun u hu => ?_, ?_⟩
      · simp only; rw [upd_other _ _ (by omega)]; exact ih1 u hu
      · have := heldBy_upd v b.thr t .idle n ht
        rw [hi] at this
        cases r with
        | unit => simp [heldVal] at this ⊢; omega
        | val w =>
          cases w with
          | none => simp [heldVal] at this ⊢; omega
          | some w => by_cases e : w = v <;> simp [heldVal, e] at this ⊢ <;> omega

end Count

/-! ## A thread that runs alone finishes -/

/-- Thread `t` finishes its operation within `n` of its own accesses, if no other thread does anything. -/
inductive Ends (t : Tid) : Nat → St α → Prop where
  | here {n s} : (s.thr t).pc = .idle → Ends t n s
  | step {n s s' o} (a : Addr) : exec s (.go t a) = some (s', o) → Ends t n s' → Ends t (n + 1) s

theorem Ends.mono {t : Tid} {n m : Nat} {s : St α} (h : Ends t n s) (hm : n ≤ m) : Ends t m s := by
  induction h generalizing m with
  | here h => exact .here h
  | step a h _ ih =>
    cases m with
    | zero => omega
    | succ m => exact .step a h (ih (by omega))

/-- The state satisfies the invariant. -/
def Ok (s : St α) : Prop := ∃ g a, Inv s g a

theorem Ok.step {s s' : St α} {x : Act α} {o} (h : Ok s) (e : exec s x = some (s', o)) : Ok s' := by
  obtain ⟨g, a, hi⟩ := h
  obtain ⟨g', a', hi', _⟩ := Queue.step hi e
  exact ⟨g', a', hi'⟩

@[simp] theorem at_thr (s : St α) (t : Tid) (pc : Pc α) : ((s.at t pc).thr t).pc = pc := by simp [St.at]

theorem ends_eret {s : St α} {t : Tid} (h : (s.thr t).pc = .eret) : Ends t 1 s :=
  .step 0 (s' := s.at t .idle) (o := some (.ret t .unit)) (by simp only [exec, h, goPc]) (.here (at_thr _ _ _))

theorem ends_dret {s : St α} {t : Tid} {v : Option α} (h : (s.thr t).pc = .dret v) : Ends t 1 s :=
  .step 0 (s' := s.at t .idle) (o := some (.ret t (.val v))) (by simp only [exec, h, goPc]) (.here (at_thr _ _ _))

theorem ends_d7 {s : St α} {t : Tid} {n : Addr} (hs : Ok s) (h : (s.thr t).pc = .d7 n) : Ends t 2 s := by
  obtain ⟨g, a, hi⟩ := hs
  have hok := (hi.tok t).ok
  have hab := (hi.tok t).abs
  rw [h] at hok hab
  obtain ⟨v, hv, _⟩ := hab
  have hr := hi.sh.heap _ _ hv (hok.2 _ (Nat.le_succ _)).1
  exact .step 0 (s' := s.at t (.dret (some v))) (o := none) (by simp only [exec, h, goPc, hr]) (ends_dret (at_thr _ _ _))

theorem ends_d6 {s : St α} {t : Tid} {hd n : Addr} (hs : Ok s) (h : (s.thr t).pc = .d6 hd n) : Ends t 3 s := by
  have e : exec s (.go t 0) = some ({ s with retired := s.retired ++ [(hd, s.pinnedNow)] }.at t (.d7 n), none) := by
    simp only [exec, h, goPc]
  exact .step 0 e (ends_d7 (hs.step e) (at_thr _ _ _))

theorem ends_d5 {s : St α} {t : Tid} {hd n : Addr} (hs : Ok s) (h : (s.thr t).pc = .d5 hd n) : Ends t 4 s := by
  have e : exec s (.go t 0) = some ((s.casTail hd n).at t (.d6 hd n), none) := by simp only [exec, h, goPc]
  exact .step 0 e (ends_d6 (hs.step e) (at_thr _ _ _))

theorem ends_d4 {s : St α} {t : Tid} {hd n : Addr} (hs : Ok s) (h : (s.thr t).pc = .d4 hd n) : Ends t 5 s := by
  by_cases hh : s.tail = hd
  · have e : exec s (.go t 0) = some (s.at t (.d5 hd n), none) := by simp only [exec, h, goPc, hh, if_true]
    exact .step 0 e (ends_d5 (hs.step e) (at_thr _ _ _))
  · have e : exec s (.go t 0) = some (s.at t (.d6 hd n), none) := by simp only [exec, h, goPc, hh, if_false]
    exact .step 0 e ((ends_d6 (hs.step e) (at_thr _ _ _)).mono (by omega))

theorem ends_d3_fresh {s : St α} {t : Tid} {n : Addr} (hs : Ok s) (h : (s.thr t).pc = .d3 s.head n) : Ends t 6 s := by
  have e : exec s (.go t 0) = some ({ s with head := n }.at t (.d4 s.head n), none) := by
    simp only [exec, h, goPc, if_true]
  exact .step 0 e (ends_d4 (hs.step e) (at_thr _ _ _))

theorem ends_d2_fresh {s : St α} {t : Tid} (hs : Ok s) (h : (s.thr t).pc = .d2 s.head) : Ends t 7 s := by
  obtain ⟨g, a, hi⟩ := id hs
  have hok := (hi.tok t).ok
  rw [h] at hok
  obtain ⟨w, _, hr⟩ := hi.sh.read hok.2.2 (Nat.le_refl _) hok.1
  cases hn : g.a (g.tp t + 1) with
  | none =>
    have e : exec s (.go t 0) = some (s.at t (.dret none), none) := by
      simp only [exec, h, goPc, St.loadNext, hr, Option.map_some, hn]
    exact .step 0 e ((ends_dret (at_thr _ _ _)).mono (by omega))
  | some n =>
    have e : exec s (.go t 0) = some (s.at t (.d3 s.head n), none) := by
      simp only [exec, h, goPc, St.loadNext, hr, Option.map_some, hn]
    exact .step 0 e (ends_d3_fresh (hs.step e) (at_thr _ _ _))

theorem ends_d1 {s : St α} {t : Tid} (hs : Ok s) (h : (s.thr t).pc = .d1) : Ends t 8 s := by
  have e : exec s (.go t 0) = some (s.at t (.d2 s.head), none) := by simp only [exec, h, goPc]
  exact .step 0 e (ends_d2_fresh (hs.step e) (at_thr _ _ _))

theorem ends_d3 {s : St α} {t : Tid} {hd n : Addr} (hs : Ok s) (h : (s.thr t).pc = .d3 hd n) : Ends t 9 s := by
  by_cases hh : s.head = hd
  · subst hh
    exact (ends_d3_fresh hs h).mono (by omega)
  · have e : exec s (.go t 0) = some (s.at t .d1, none) := by simp only [exec, h, goPc, hh, if_false]
    exact .step 0 e (ends_d1 (hs.step e) (at_thr _ _ _))

theorem ends_d2 {s : St α} {t : Tid} {hd : Addr} (hs : Ok s) (h : (s.thr t).pc = .d2 hd) : Ends t 10 s := by
  obtain ⟨g, a, hi⟩ := id hs
  have hok := (hi.tok t).ok
  rw [h] at hok
  obtain ⟨w, _, hr⟩ := hi.sh.read hok.2.2 (Nat.le_refl _) hok.1
  cases hn : g.a (g.tp t + 1) with
  | none =>
    have e : exec s (.go t 0) = some (s.at t (.dret none), none) := by
      simp only [exec, h, goPc, St.loadNext, hr, Option.map_some, hn]
    exact .step 0 e ((ends_dret (at_thr _ _ _)).mono (by omega))
  | some n =>
    have e : exec s (.go t 0) = some (s.at t (.d3 hd n), none) := by
      simp only [exec, h, goPc, St.loadNext, hr, Option.map_some, hn]
    exact .step 0 e (ends_d3 (hs.step e) (at_thr _ _ _))

theorem ends_e4 {s : St α} {t : Tid} {new tl : Addr} (h : (s.thr t).pc = .e4 new tl) : Ends t 2 s := by
  have e : exec s (.go t 0) = some ((s.casTail tl new).at t .eret, none) := by simp only [exec, h, goPc]
  exact .step 0 e (ends_eret (at_thr _ _ _))

/-- `tail` points at the last node. -/
def TailLast (s : St α) : Prop := ∃ nd, s.heap s.tail = some nd ∧ nd.next = none

theorem ends_e3_last {s : St α} {t : Tid} {v : α} {new tl : Addr} {nd : Node α} (h : (s.thr t).pc = .e3 v new tl)
    (hn : s.heap tl = some nd) (hx : nd.next = none) : Ends t 3 s := by
  have e : exec s (.go t 0) =
      some ({ s with heap := setHeap s.heap tl (some { nd with next := some new }) }.at t (.e4 new tl), none) := by
    simp only [exec, h, goPc, hn, hx]
  exact .step 0 e (ends_e4 (at_thr _ _ _))

theorem ends_e2_last {s : St α} {t : Tid} {v : α} {new tl : Addr} {nd : Node α} (h : (s.thr t).pc = .e2 v new tl)
    (hn : s.heap tl = some nd) (hx : nd.next = none) : Ends t 4 s := by
  have e : exec s (.go t 0) = some (s.at t (.e3 v new tl), none) := by
    simp only [exec, h, goPc, St.loadNext, hn, Option.map_some, hx]
  exact .step 0 e (ends_e3_last (at_thr _ _ _) (by simpa [St.at] using hn) hx)

theorem ends_e1_last {s : St α} {t : Tid} {v : α} {new : Addr} (h : (s.thr t).pc = .e1 v new) (hl : TailLast s) :
    Ends t 5 s := by
  obtain ⟨nd, hn, hx⟩ := hl
  have e : exec s (.go t 0) = some (s.at t (.e2 v new s.tail), none) := by simp only [exec, h, goPc]
  exact .step 0 e (ends_e2_last (at_thr _ _ _) (by simpa [St.at] using hn) hx)

/-- Helping brings `tail` to the last node. -/
theorem ends_e5_fresh {s : St α} {t : Tid} {v : α} {new n : Addr} (hs : Ok s) (h : (s.thr t).pc = .e5 v new s.tail n) :
    Ends t 6 s := by
  obtain ⟨g, a, hi⟩ := id hs
  have hok := (hi.tok t).ok
  rw [h] at hok
  obtain ⟨h1, h2, h3, h4⟩ := hok
  have hT := (hi.sh.tail_eq h4 h1).1 rfl
  obtain ⟨w, _, hr⟩ := hi.sh.read h4 (Nat.le_succ _) h2
  have hlast : g.a (g.tp t + 1 + 1) = none := by
    cases hc : g.a (g.tp t + 1 + 1) with
    | none => rfl
    | some y =>
      have := a_lt hc
      have := hi.sh.lag
      omega
  have e : exec s (.go t 0) = some ((s.casTail s.tail n).at t (.e1 v new), none) := by simp only [exec, h, goPc]
  refine .step 0 e (ends_e1_last (at_thr _ _ _) ⟨⟨w, none⟩, ?_, ?_⟩)
  · simp only [St.at, St.casTail, if_true]; rw [hr, hlast]
  · rfl

theorem ends_e1 {s : St α} {t : Tid} {v : α} {new : Addr} (hs : Ok s) (h : (s.thr t).pc = .e1 v new) : Ends t 8 s := by
  have e : exec s (.go t 0) = some (s.at t (.e2 v new s.tail), none) := by simp only [exec, h, goPc]
  have hs' := hs.step e
  refine .step 0 e ?_
  obtain ⟨g, a, hi⟩ := id hs'
  have hok := (hi.tok t).ok
  rw [at_thr] at hok
  obtain ⟨w, _, hr⟩ := hi.sh.read hok.2.2 (Nat.le_refl _) hok.1
  have hp : ((s.at t (.e2 v new s.tail)).thr t).pc = .e2 v new s.tail := at_thr _ _ _
  cases hn : g.a (g.tp t + 1) with
  | none => exact (ends_e2_last hp hr hn).mono (by omega)
  | some n =>
    have e' : exec (s.at t (.e2 v new s.tail)) (.go t 0) =
        some ((s.at t (.e2 v new s.tail)).at t (.e5 v new s.tail n), none) := by
      simp only [exec, hp, goPc, St.loadNext, hr, Option.map_some, hn]
    exact .step 0 e' (ends_e5_fresh (hs'.step e') (at_thr _ _ _))

theorem ends_e5 {s : St α} {t : Tid} {v : α} {new tl n : Addr} (hs : Ok s) (h : (s.thr t).pc = .e5 v new tl n) :
    Ends t 9 s := by
  have e : exec s (.go t 0) = some ((s.casTail tl n).at t (.e1 v new), none) := by simp only [exec, h, goPc]
  exact .step 0 e (ends_e1 (hs.step e) (at_thr _ _ _))

theorem ends_e3 {s : St α} {t : Tid} {v : α} {new tl : Addr} (hs : Ok s) (h : (s.thr t).pc = .e3 v new tl) :
    Ends t 9 s := by
  obtain ⟨g, a, hi⟩ := id hs
  have hok := (hi.tok t).ok
  rw [h] at hok
  obtain ⟨w, _, hr⟩ := hi.sh.read hok.2.2 (Nat.le_refl _) hok.1
  cases hn : g.a (g.tp t + 1) with
  | none => exact (ends_e3_last h hr hn).mono (by omega)
  | some n =>
    have e : exec s (.go t 0) = some (s.at t (.e1 v new), none) := by simp only [exec, h, goPc, hr, hn]
    exact .step 0 e (ends_e1 (hs.step e) (at_thr _ _ _))

theorem ends_e2 {s : St α} {t : Tid} {v : α} {new tl : Addr} (hs : Ok s) (h : (s.thr t).pc = .e2 v new tl) :
    Ends t 10 s := by
  obtain ⟨g, a, hi⟩ := id hs
  have hok := (hi.tok t).ok
  rw [h] at hok
  obtain ⟨w, _, hr⟩ := hi.sh.read hok.2.2 (Nat.le_refl _) hok.1
  cases hn : g.a (g.tp t + 1) with
  | none => exact (ends_e2_last h hr hn).mono (by omega)
  | some n =>
    have e : exec s (.go t 0) = some (s.at t (.e5 v new tl n), none) := by
      simp only [exec, h, goPc, St.loadNext, hr, Option.map_some, hn]
    exact .step 0 e (ends_e5 (hs.step e) (at_thr _ _ _))

/-- **C17.** Wherever the other threads stopped, a thread finishes its operation within ten of its own accesses: the two loops
cannot spin on a state that nobody changes, and no thread waits for another. (The allocator must have an address
left.) -/
theorem C17_no_thread_waits {x : Addr} {acts : List (Act α)} {s : St α} {evs : List (Ev (Op α) (Ret α))}
    (h : run (init x) acts = some (s, evs)) (t : Tid) (hmem : ∃ a, s.heap a = none) : Ends t 10 s := by
  obtain ⟨g, a, hi, _⟩ := run_inv (inv_init x) h
  have hs : Ok s := ⟨g, a, hi⟩
  cases hp : (s.thr t).pc with
  | idle => exact .here hp
  | e0 v =>
    obtain ⟨y, hy⟩ := hmem
    have e : exec s (.go t y) = some ({ s with heap := setHeap s.heap y (some ⟨some v, none⟩) }.at t (.e1 v y), none) := by
      simp only [exec, hp, goPc, hy]
    exact .step y e ((ends_e1 (hs.step e) (at_thr _ _ _)).mono (by omega))
  | e1 v new => exact (ends_e1 hs hp).mono (by omega)
  | e2 v new tl => exact ends_e2 hs hp
  | e3 v new tl => exact (ends_e3 hs hp).mono (by omega)
  | e4 new tl => exact (ends_e4 hp).mono (by omega)
  | e5 v new tl n => exact (ends_e5 hs hp).mono (by omega)
  | eret => exact (ends_eret hp).mono (by omega)
  | d1 => exact (ends_d1 hs hp).mono (by omega)
  | d2 hd => exact ends_d2 hs hp
  | d3 hd n => exact (ends_d3 hs hp).mono (by omega)
  | d4 hd n => exact (ends_d4 hs hp).mono (by omega)
  | d5 hd n => exact (ends_d5 hs hp).mono (by omega)
  | d6 hd n => exact (ends_d6 hs hp).mono (by omega)
  | d7 n => exact (ends_d7 hs hp).mono (by omega)
  | dret v => exact (ends_dret hp).mono (by omega)
  | fault => exact absurd hp (C17_memory_safe h t)

/-- **C17.** No value is returned more often than it was given, and when no operation is going on, every value given was
returned or is in a node behind `head`, exactly as often. -/
theorem C17_nothing_lost_or_doubled [DecidableEq α] {x : Addr} {acts : List (Act α)} {s : St α}
    {evs : List (Ev (Op α) (Ret α))} (h : run (init x) acts = some (s, evs)) {n : Nat} (hn : ∀ e ∈ evs, Below n e) :
    (∀ v, returned v evs ≤ called v evs) ∧
    ((∀ t, (s.thr t).pc = .idle) →
      ∃ nd l, s.heap s.head = some nd ∧ Chain s.heap nd.next l ∧ ∀ v, called v evs = returned v evs + l.count v) := by
  obtain ⟨g, a, hi, hr⟩ := run_inv (inv_init x) h
  have hc := fun v => count_run (n := n) (v := v) hr (fun _ _ => rfl) hn
  have hz : ∀ v m, heldBy v (fun _ => (.idle : AThr (Op α) (Ret α))) m = 0 := by
    intro v m
    induction m with
    | zero => rfl
    | succ m ih => simp [heldBy, ih, heldVal]
  obtain ⟨nd, hnd, hch⟩ := hi.chain
  refine ⟨fun v => ?_, fun hidle => ⟨nd, a.q, hnd, hch, fun v => ?_⟩⟩
  · have := (hc v).2
    simp only [hz, List.count_nil] at this
    omega
  · have h1 := (hc v).2
    have h2 : a.thr = fun _ => .idle := by
      funext t
      have := (hi.tok t).abs
      rw [hidle t] at this
      exact this
    simp only [h2, hz, List.count_nil] at h1
    omega

/-! ## A run with reuse of memory

Two threads; thread 1 is inside a dequeue with a pointer to the sentinel while thread 0 dequeues and retires it. The sentinel
is freed only after thread 1 let go, and its address is then used again. -/

def sched1 : List (Act Nat) :=
  [.pin 0, .pin 1, .call 0 (.enq 7), .go 0 1, .go 0 0, .go 0 0, .go 0 0, .go 0 0, .go 0 0,
   .call 1 .deq, .go 1 0,
   .call 0 .deq, .go 0 0, .go 0 0, .go 0 0, .go 0 0, .go 0 0, .go 0 0, .go 0 0,
   .go 1 0, .go 1 0, .go 1 0, .go 1 0, .go 1 0]

/-- Thread 0 gets the 7, thread 1 gets nothing. -/
def seen1 : List (Ev (Op Nat) (Ret Nat)) :=
  [.call 0 (.enq 7), .ret 0 .unit, .call 1 .deq, .call 0 .deq, .ret 0 (.val (some 7)), .ret 1 (.val none)]

deriving instance DecidableEq for Op, Ret

example : (run (init 0) sched1).map (·.2) = some seen1 := by decide +kernel
/-- The sentinel cannot be freed while thread 1 is pinned … -/
example : (run (init 0) (sched1 ++ [.unpin 0, .reclaim 0])).isNone = true := by decide +kernel
/-- … and its address is used again afterwards. -/
example : (run (init 0) (sched1 ++ [.unpin 0, .unpin 1, .reclaim 0, .pin 0, .call 0 (.enq 8), .go 0 0, .go 0 0, .go 0 0,
    .go 0 0, .go 0 0, .go 0 0, .call 0 .deq, .go 0 0, .go 0 0, .go 0 0, .go 0 0, .go 0 0, .go 0 0, .go 0 0])).map (·.2) =
    some (seen1 ++ [.call 0 (.enq 8), .ret 0 .unit, .call 0 .deq, .ret 0 (.val (some 8))]) := by decide +kernel

/-- The specification refuses wrong answers: elements out of order, a value twice, an empty answer from a queue that holds
something. -/
example : ¬ Linearizable (fifo (α := Nat)) [] (flat 0 [(.enq 1, .unit), (.enq 2, .unit), (.deq, .val (some 2))]) := by
  rw [linearizable_flat]; simp [Replay, fifo]
example : ¬ Linearizable (fifo (α := Nat)) [] (flat 0 [(.enq 1, .unit), (.deq, .val (some 1)), (.deq, .val (some 1))]) := by
  rw [linearizable_flat]; simp [Replay, fifo]
example : ¬ Linearizable (fifo (α := Nat)) [] (flat 0 [(.enq 1, .unit), (.deq, .val none)]) := by
  rw [linearizable_flat]; simp [Replay, fifo]
example : Linearizable (fifo (α := Nat)) [] (flat 0 [(.enq 1, .unit), (.enq 2, .unit), (.deq, .val (some 1))]) := by
  rw [linearizable_flat]; simp [Replay, fifo]

end Verif.Queue
