/-
Linearizability, stated without reference to any implementation: what clients see of a concurrent object (calls and
returns, in the order in which they happen) must be something they could have seen of an object that does each
operation in one indivisible step somewhere between its call and its return.
-/
namespace Verif.Conc

/-- A sequential object: what an operation does to the state and what it returns. -/
structure Obj (σ Op Ret : Type) where
  apply : σ → Op → σ × Ret

/-- What clients see. -/
inductive Ev (Op Ret : Type) where
  | call (t : Nat) (op : Op)
  | ret (t : Nat) (r : Ret)
deriving DecidableEq, Repr

/-- A client of the indivisible object: no operation, called but not done, done but not returned. -/
inductive AThr (Op Ret : Type) where
  | idle
  | pend (op : Op)
  | done (r : Ret)
deriving DecidableEq, Repr

def upd {α : Type} (f : Nat → α) (t : Nat) (x : α) : Nat → α := fun u => if u = t then x else f u

@[simp] theorem upd_same {α} (f : Nat → α) (t : Nat) (x : α) : upd f t x t = x := by simp [upd]
@[simp] theorem upd_other {α} (f : Nat → α) {t u : Nat} (x : α) (h : u ≠ t) : upd f t x u = f u := by simp [upd, h]

/-- The indivisible object together with its clients. -/
structure ASt (σ Op Ret : Type) where
  q : σ
  thr : Nat → AThr Op Ret

/-- A step of the indivisible object; only calls and returns are seen. -/
inductive AStep {σ Op Ret : Type} (O : Obj σ Op Ret) : ASt σ Op Ret → Option (Ev Op Ret) → ASt σ Op Ret → Prop where
  | call {a t op} : a.thr t = .idle → AStep O a (some (.call t op)) ⟨a.q, upd a.thr t (.pend op)⟩
  | lin {a t op} : a.thr t = .pend op →
      AStep O a none ⟨(O.apply a.q op).1, upd a.thr t (.done (O.apply a.q op).2)⟩
  | ret {a t r} : a.thr t = .done r → AStep O a (some (.ret t r)) ⟨a.q, upd a.thr t .idle⟩

/-- Runs of the indivisible object and what is seen of them. -/
inductive ARun {σ Op Ret : Type} (O : Obj σ Op Ret) : ASt σ Op Ret → List (Ev Op Ret) → ASt σ Op Ret → Prop where
  | refl (a) : ARun O a [] a
  | tail {a es b o c} : ARun O a es b → AStep O b o c → ARun O a (es ++ o.toList) c

/-- The events can be seen of the indivisible object started in `q0` with no operation going on. -/
def Linearizable {σ Op Ret : Type} (O : Obj σ Op Ret) (q0 : σ) (es : List (Ev Op Ret)) : Prop :=
  ∃ a, ARun O ⟨q0, fun _ => .idle⟩ es a

/-! ## Histories without overlap

As a check of the definition: if the operations do not overlap, linearizable means exactly what the sequential object
does. -/

/-- One client does one operation after the other. -/
def flat {Op Ret : Type} (t : Nat) : List (Op × Ret) → List (Ev Op Ret)
  | [] => []
  | (op, r) :: l => .call t op :: .ret t r :: flat t l

/-- The sequential object gives these answers. -/
def Replay {σ Op Ret : Type} (O : Obj σ Op Ret) : σ → List (Op × Ret) → σ → Prop
  | q, [], q' => q' = q
  | q, (op, r) :: l, q' => (O.apply q op).2 = r ∧ Replay O (O.apply q op).1 l q'

theorem flat_append {Op Ret : Type} (t : Nat) : ∀ l m : List (Op × Ret), flat t (l ++ m) = flat t l ++ flat t m
  | [], _ => rfl
  | (_, _) :: l, m => by simp [flat, flat_append t l m]

theorem Replay.snoc {σ Op Ret : Type} {O : Obj σ Op Ret} : ∀ {l : List (Op × Ret)} {q q' : σ} {op : Op}, Replay O q l q' →
    Replay O q (l ++ [(op, (O.apply q' op).2)]) (O.apply q' op).1
  | [], _, _, _, h => by cases h; exact ⟨rfl, rfl⟩
  | (_, _) :: _, _, _, _, h => ⟨h.1, h.2.snoc⟩

theorem flat_inj {Op Ret : Type} {t : Nat} : ∀ {l m : List (Op × Ret)}, flat t l = flat t m → l = m
  | [], [], _ => rfl
  | [], (_, _) :: _, h => by simp [flat] at h
  | (_, _) :: _, [], h => by simp [flat] at h
  | (_, _) :: _, (_, _) :: _, h => by
    simp only [flat, List.cons.injEq, Ev.call.injEq, Ev.ret.injEq, true_and] at h
    obtain ⟨rfl, rfl, h⟩ := h
    rw [flat_inj h]

theorem flat_ne_call {Op Ret : Type} {t : Nat} {op : Op} : ∀ {l m : List (Op × Ret)},
    flat t l ≠ flat t m ++ [.call t op]
  | [], m => by simp [flat]
  | (_, _) :: l, [] => by simp [flat]
  | (_, _) :: l, (_, _) :: m => by
    simp only [flat, List.cons_append, ne_eq, List.cons.injEq, not_and]
    exact fun _ _ h => flat_ne_call h

theorem run_one_client {σ Op Ret : Type} {O : Obj σ Op Ret} {t : Nat} {q0 : σ} {es : List (Ev Op Ret)} {b : ASt σ Op Ret}
    (h : ARun O ⟨q0, fun _ => .idle⟩ es b) (ht : ∀ e ∈ es, (∃ op, e = .call t op) ∨ ∃ r, e = .ret t r) :
    (∀ u, u ≠ t → b.thr u = .idle) ∧ ∃ l,
      (es = flat t l ∧ b.thr t = .idle ∧ Replay O q0 l b.q) ∨
      (∃ op, es = flat t l ++ [.call t op] ∧
        (b.thr t = .pend op ∧ Replay O q0 l b.q ∨ ∃ r, b.thr t = .done r ∧ Replay O q0 (l ++ [(op, r)]) b.q)) := by
  generalize ha : (⟨q0, fun _ => .idle⟩ : ASt σ Op Ret) = a at h
  induction h with
  | refl => subst ha; exact ⟨fun _ _ => rfl, [], .inl ⟨rfl, rfl, rfl⟩⟩
  | tail _ hs ih =>
    obtain ⟨ih1, l, ih2⟩ := ih (fun e he => ht e (List.mem_append_left _ he))
    cases hs with
    | @call u op hi =>
      obtain rfl : u = t := by
        rcases ht (.call u op) (by simp) with ⟨_, h⟩ | ⟨_, h⟩ <;> simp at h
        exact h.1
      refine ⟨fun v hv => by simp only; rw [upd_other _ _ hv]; exact ih1 v hv, l, .inr ⟨op, ?_⟩⟩
      rcases ih2 with ⟨rfl, _, h3⟩ | ⟨op', _, h | ⟨r, h, _⟩⟩
      · exact ⟨rfl, .inl ⟨upd_same _ _ _, h3⟩⟩
      · rw [h.1] at hi; simp at hi
      · rw [h] at hi; simp at hi
    | @lin u op hi =>
      obtain rfl : u = t := by
        by_cases e : u = t
        · exact e
        · rw [ih1 u e] at hi; simp at hi
      refine ⟨fun v hv => by simp only; rw [upd_other _ _ hv]; exact ih1 v hv, l, .inr ?_⟩
      rcases ih2 with ⟨_, h, _⟩ | ⟨op', rfl, h | ⟨r, h, _⟩⟩
      · rw [h] at hi; simp at hi
      · rw [h.1] at hi
        simp only [AThr.pend.injEq] at hi
        subst hi
        exact ⟨op', by simp, .inr ⟨_, upd_same _ _ _, h.2.snoc⟩⟩
      · rw [h] at hi; simp at hi
    | @ret u r hi =>
      obtain rfl : u = t := by
        rcases ht (.ret u r) (by simp) with ⟨_, h⟩ | ⟨_, h⟩ <;> simp at h
        exact h.1
      refine ⟨fun v hv => by simp only; rw [upd_other _ _ hv]; exact ih1 v hv, ?_⟩
      rcases ih2 with ⟨_, h, _⟩ | ⟨op', rfl, h | ⟨r', h, h3⟩⟩
      · rw [h] at hi; simp at hi
      · rw [h.1] at hi; simp at hi
      · rw [h] at hi
        simp only [AThr.done.injEq] at hi
        subst hi
        exact ⟨l ++ [(op', r')], .inl ⟨by simp [flat_append, flat], upd_same _ _ _, h3⟩⟩

/-- A history of one client is linearizable exactly if the sequential object gives these answers. -/
theorem linearizable_flat {σ Op Ret : Type} (O : Obj σ Op Ret) (t : Nat) (q0 : σ) (l : List (Op × Ret)) :
    Linearizable O q0 (flat t l) ↔ ∃ q', Replay O q0 l q' := by
  constructor
  · rintro ⟨b, hb⟩
    have hm : ∀ (m : List (Op × Ret)), ∀ e ∈ flat t m, (∃ op, e = Ev.call t op) ∨ ∃ r, e = Ev.ret t r := by
      intro m
      induction m with
      | nil => intro e he; simp [flat] at he
      | cons x m ih =>
        obtain ⟨op, r⟩ := x
        intro e he
        simp only [flat, List.mem_cons] at he
        rcases he with rfl | rfl | he
        · exact .inl ⟨_, rfl⟩
        · exact .inr ⟨_, rfl⟩
        · exact ih e he
    obtain ⟨_, m, ⟨h1, _, h3⟩ | ⟨op, h1, _⟩⟩ := run_one_client hb (hm l)
    · rw [flat_inj h1]; exact ⟨_, h3⟩
    · exact absurd h1 flat_ne_call
  · rintro ⟨q', h⟩
    suffices H : ∀ (l : List (Op × Ret)) (q : σ) (es : List (Ev Op Ret)) (f : Nat → AThr Op Ret),
        (∀ u, f u = .idle) → ARun O ⟨q0, fun _ => .idle⟩ es ⟨q, f⟩ → Replay O q l q' →
        ∃ b, ARun O ⟨q0, fun _ => .idle⟩ (es ++ flat t l) b by
      have := H l q0 [] (fun _ => .idle) (fun _ => rfl) (.refl _) h
      simpa [Linearizable] using this
    intro l
    induction l with
    | nil => intro q es f _ hr _; exact ⟨_, by simpa [flat] using hr⟩
    | cons x l ih =>
      obtain ⟨op, r⟩ := x
      intro q es f hf hr hp
      obtain ⟨rfl, hp⟩ := hp
      have h1 := hr.tail (.call (t := t) (op := op) (hf t))
      have h2 := h1.tail (.lin (t := t) (upd_same _ _ _))
      have h3 := h2.tail (.ret (t := t) (upd_same _ _ _))
      have := ih _ _ _ (fun u => ?_) h3 hp
      · simpa [flat] using this
      · by_cases e : u = t
        · subst e; simp
        · simp [e, hf u]

end Verif.Conc
