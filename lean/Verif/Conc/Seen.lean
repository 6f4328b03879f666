/-
An operation that changes nothing may be linearized late, with any answer that was right at some instant since its call.
This is what readers of a lock-free structure do: they come to a place that was cut off in the meantime.
-/
import Verif.Conc.Lin
namespace Verif.Conc

/-- A client of the object: as `AThr`, but a pending operation carries the answers that it could have given, without
changing anything, at some instant since its call. -/
inductive EThr (Op Ret : Type) where
  | idle
  | pend (op : Op) (S : Ret → Prop)
  | done (r : Ret)

structure ESt (σ Op Ret : Type) where
  q : σ
  thr : Nat → EThr Op Ret

variable {σ Op Ret : Type}

/-- The operation would change nothing now and answer `r`. -/
def now (O : Obj σ Op Ret) (q : σ) (op : Op) : Ret → Prop := fun r => O.apply q op = (q, r)

/-- A pending operation sees the state `q`. -/
def see (O : Obj σ Op Ret) (q : σ) : EThr Op Ret → EThr Op Ret
  | .idle => .idle
  | .pend op S => .pend op fun r => S r ∨ now O q op r
  | .done r => .done r

inductive EStep (O : Obj σ Op Ret) : ESt σ Op Ret → Option (Ev Op Ret) → ESt σ Op Ret → Prop where
  | call {e t op} : e.thr t = .idle → EStep O e (some (.call t op)) ⟨e.q, upd e.thr t (.pend op (now O e.q op))⟩
  | lin {e t op S} : e.thr t = .pend op S →
      EStep O e none ⟨(O.apply e.q op).1,
        upd (fun u => see O (O.apply e.q op).1 (e.thr u)) t (.done (O.apply e.q op).2)⟩
  | late {e t op S r} : e.thr t = .pend op S → S r → EStep O e none ⟨e.q, upd e.thr t (.done r)⟩
  | ret {e t r} : e.thr t = .done r → EStep O e (some (.ret t r)) ⟨e.q, upd e.thr t .idle⟩

inductive ERun (O : Obj σ Op Ret) : ESt σ Op Ret → List (Ev Op Ret) → ESt σ Op Ret → Prop where
  | refl (a) : ERun O a [] a
  | tail {a es b o c} : ERun O a es b → EStep O b o c → ERun O a (es ++ o.toList) c

/-- What the indivisible object may have done for this client: a pending operation may have happened already. -/
def PT : EThr Op Ret → AThr Op Ret → Prop
  | .idle, b => b = .idle
  | .pend op S, b => b = .pend op ∨ ∃ r, S r ∧ b = .done r
  | .done r, b => b = .done r

def Poss (e : ESt σ Op Ret) (a : ASt σ Op Ret) : Prop := a.q = e.q ∧ ∀ t, PT (e.thr t) (a.thr t)

/-- Several operations that change nothing happen one after the other. -/
theorem lins {O : Obj σ Op Ret} : ∀ (n : Nat) {a0 a a' : ASt σ Op Ret} {es : List (Ev Op Ret)}, ARun O a0 es a → a.q = a'.q →
    (∀ u, a.thr u = a'.thr u ∨ ∃ op r, a.thr u = .pend op ∧ a'.thr u = .done r ∧ now O a.q op r) →
    (∀ u, n ≤ u → a.thr u = a'.thr u) → ARun O a0 es a'
  | 0, a0, a, a', es, hr, hq, _, hn => by
    have : a = a' := by
      cases a; cases a'
      simp only at hq hn
      subst hq
      have : (_ : Nat → AThr Op Ret) = _ := funext fun u => hn u (Nat.zero_le _)
      rw [this]
    rw [← this]; exact hr
  | n + 1, a0, a, a', es, hr, hq, h, hn => by
    rcases h n with hs | ⟨op, r, h1, h2, h3⟩
    · exact lins n hr hq h (fun u hu => by
        by_cases e : u = n
        · subst e; exact hs
        · exact hn u (by omega))
    · have h3 : O.apply a.q op = (a.q, r) := h3
      have hstep := hr.tail (.lin h1)
      simp only [h3, Option.toList_none, List.append_nil] at hstep
      refine lins n hstep hq (fun u => ?_) (fun u hu => ?_)
      · by_cases e : u = n
        · subst e; left; simp only; rw [upd_same, h2]
        · simp only [upd_other _ _ e]; exact h u
      · by_cases e : u = n
        · subst e; simp only; rw [upd_same, h2]
        · simp only [upd_other _ _ e]; exact hn u (by omega)

theorem erun_finite {O : Obj σ Op Ret} {q0 : σ} {es : List (Ev Op Ret)} {e : ESt σ Op Ret}
    (h : ERun O ⟨q0, fun _ => .idle⟩ es e) : ∃ n, ∀ t, n ≤ t → e.thr t = .idle := by
  generalize ha : (⟨q0, fun _ => .idle⟩ : ESt σ Op Ret) = a at h
  induction h with
  | refl => subst ha; exact ⟨0, fun _ _ => rfl⟩
  | tail _ hs ih =>
    obtain ⟨n, hn⟩ := ih
    cases hs with
    | @call t op hi =>
      refine ⟨max n (t + 1), fun u hu => ?_⟩
      simp only; rw [upd_other _ _ (by omega)]; exact hn u (by omega)
    | @lin t op S hi =>
      refine ⟨max n (t + 1), fun u hu => ?_⟩
      simp only; rw [upd_other _ _ (by omega), hn u (by omega)]; rfl
    | @late t op S r hi _ =>
      refine ⟨max n (t + 1), fun u hu => ?_⟩
      simp only; rw [upd_other _ _ (by omega)]; exact hn u (by omega)
    | @ret t r hi =>
      refine ⟨max n (t + 1), fun u hu => ?_⟩
      simp only; rw [upd_other _ _ (by omega)]; exact hn u (by omega)

/-- Everything the indivisible object may have done, it can do. -/
theorem erun_poss {O : Obj σ Op Ret} {q0 : σ} {es : List (Ev Op Ret)} {e : ESt σ Op Ret}
    (h : ERun O ⟨q0, fun _ => .idle⟩ es e) : ∀ a, Poss e a → ARun O ⟨q0, fun _ => .idle⟩ es a := by
  generalize ha : (⟨q0, fun _ => .idle⟩ : ESt σ Op Ret) = e0 at h
  induction h with
  | refl =>
    subst ha
    rintro ⟨q, thr⟩ ⟨hq, ht⟩
    simp only at hq ht
    subst hq
    have : thr = fun _ => .idle := funext ht
    rw [this]
    exact .refl _
  | @tail es e o e' hr hs ih =>
    intro a' hp
    obtain ⟨hq, ht⟩ := hp
    cases hs with
    | @call t op hi =>
      have ha : ARun O ⟨q0, fun _ => .idle⟩ es ⟨a'.q, upd a'.thr t .idle⟩ := by
        refine ih _ ⟨hq, fun u => ?_⟩
        by_cases hu : u = t
        · subst hu; simp only [upd_same]; rw [hi]; rfl
        · have := ht u
          simp only [upd_other _ _ hu] at this ⊢
          exact this
      have h1 := ha.tail (.call (t := t) (op := op) (upd_same _ _ _))
      have htt := ht t
      simp only [upd_same] at htt
      rcases htt with htt | ⟨r, hr, htt⟩
      · have : a' = ⟨a'.q, upd (upd a'.thr t .idle) t (.pend op)⟩ := by
          cases a' with | mk q thr =>
          simp only [ASt.mk.injEq, true_and]
          funext u
          by_cases hu : u = t
          · subst hu; rw [upd_same]; exact htt
          · rw [upd_other _ _ hu, upd_other _ _ hu]
        rw [this]; exact h1
      · have h2 := h1.tail (.lin (t := t) (upd_same _ _ _))
        simp only [Option.toList_none, List.append_nil] at h2
        simp only at hq
        have hr' : O.apply a'.q op = (a'.q, r) := by rw [hq]; exact hr
        simp only [hr'] at h2
        have : a' = ⟨a'.q, upd (upd (upd a'.thr t .idle) t (.pend op)) t (.done r)⟩ := by
          cases a' with | mk q thr =>
          simp only [ASt.mk.injEq, true_and]
          funext u
          by_cases hu : u = t
          · subst hu; rw [upd_same]; exact htt
          · rw [upd_other _ _ hu, upd_other _ _ hu, upd_other _ _ hu]
        rw [this]; exact h2
    | @lin t op S hi =>
      simp only [Option.toList_none, List.append_nil]
      obtain ⟨n, hn⟩ := erun_finite (ha ▸ hr)
      have hex : ∀ u, ∃ b, u ≠ t → PT (e.thr u) b ∧ (b = a'.thr u ∨
          ∃ opu r, b = .pend opu ∧ a'.thr u = .done r ∧ now O (O.apply e.q op).1 opu r) := by
        intro u
        by_cases hu : u = t
        · exact ⟨.idle, fun h => absurd hu h⟩
        · have h1 := ht u
          simp only [upd_other _ _ hu] at h1
          cases hc : e.thr u with
          | idle => rw [hc] at h1; exact ⟨a'.thr u, fun _ => ⟨h1, .inl rfl⟩⟩
          | done r => rw [hc] at h1; exact ⟨a'.thr u, fun _ => ⟨h1, .inl rfl⟩⟩
          | pend opu S' =>
            rw [hc] at h1
            rcases h1 with h1 | ⟨r, h1 | h1, h2⟩
            · exact ⟨a'.thr u, fun _ => ⟨.inl h1, .inl rfl⟩⟩
            · exact ⟨a'.thr u, fun _ => ⟨.inr ⟨r, h1, h2⟩, .inl rfl⟩⟩
            · exact ⟨.pend opu, fun _ => ⟨.inl rfl, .inr ⟨opu, r, rfl, h2, h1⟩⟩⟩
      let f : Nat → AThr Op Ret := upd (fun u => Classical.choose (hex u)) t (.pend op)
      have hf : ∀ u, u ≠ t → PT (e.thr u) (f u) ∧ (f u = a'.thr u ∨
          ∃ opu r, f u = .pend opu ∧ a'.thr u = .done r ∧ now O (O.apply e.q op).1 opu r) := by
        intro u hu
        have := Classical.choose_spec (hex u) hu
        simp only [f, upd_other _ _ hu]
        exact this
      have hft : f t = .pend op := upd_same _ _ _
      have h1 : ARun O ⟨q0, fun _ => .idle⟩ es ⟨e.q, f⟩ := by
        refine ih _ ⟨rfl, fun u => ?_⟩
        by_cases hu : u = t
        · subst hu; rw [hi]; exact .inl hft
        · exact (hf u hu).1
      have h2 := h1.tail (.lin (t := t) (op := op) hft)
      simp only [Option.toList_none, List.append_nil] at h2
      refine lins n h2 hq.symm (fun u => ?_) (fun u hu => ?_)
      · by_cases hut : u = t
        · subst hut
          left
          have := ht u
          simp only [upd_same] at this ⊢
          exact this.symm
        · simp only [upd_other _ _ hut]
          exact (hf u hut).2
      · by_cases hut : u = t
        · subst hut
          have := ht u
          simp only [upd_same] at this ⊢
          exact this.symm
        · simp only [upd_other _ _ hut]
          rcases (hf u hut).2 with h | ⟨opu, r, h, _⟩
          · exact h
          · have := (hf u hut).1
            rw [hn u hu] at this
            rw [h] at this
            exact absurd this (by simp [PT])
    | @late t op S r hi hS =>
      simp only [Option.toList_none, List.append_nil]
      refine ih _ ⟨hq, fun u => ?_⟩
      by_cases hu : u = t
      · subst hu
        have := ht u
        simp only [upd_same] at this
        rw [hi]
        exact .inr ⟨r, hS, this⟩
      · have := ht u
        simp only [upd_other _ _ hu] at this
        exact this
    | @ret t r hi =>
      have h1 : ARun O ⟨q0, fun _ => .idle⟩ es ⟨a'.q, upd a'.thr t (.done r)⟩ := by
        refine ih _ ⟨hq, fun u => ?_⟩
        by_cases hu : u = t
        · subst hu; simp only [upd_same]; rw [hi]; rfl
        · have := ht u
          simp only [upd_other _ _ hu] at this ⊢
          exact this
      have h2 := h1.tail (.ret (t := t) (upd_same _ _ _))
      have : a' = ⟨a'.q, upd (upd a'.thr t (.done r)) t .idle⟩ := by
        cases a' with | mk q thr =>
        simp only [ASt.mk.injEq, true_and]
        funext u
        by_cases hu : u = t
        · subst hu
          have := ht u
          simp only [upd_same] at this ⊢
          exact this
        · rw [upd_other _ _ hu, upd_other _ _ hu]
      rw [this]; exact h2

/-- Runs with late operations are linearizable. -/
theorem ERun.linearizable {O : Obj σ Op Ret} {q0 : σ} {es : List (Ev Op Ret)} {e : ESt σ Op Ret}
    (h : ERun O ⟨q0, fun _ => .idle⟩ es e) : Linearizable O q0 es := by
  refine ⟨⟨e.q, fun t => match e.thr t with | .idle => .idle | .pend op _ => .pend op | .done r => .done r⟩,
    erun_poss h _ ⟨rfl, fun t => ?_⟩⟩
  simp only
  cases e.thr t with
  | idle => rfl
  | pend op S => exact .inl rfl
  | done r => rfl

end Verif.Conc
